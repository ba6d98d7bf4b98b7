{"id": "C01", "title": "Unnormalised forward complex FFT computes the DFT", "statement": "For an object from createComplexFFT(n), fwd0(x) replaces x by X with X[k] = sum_j x[j]*exp(-2*pi*i*j*k/n) (in exact arithmetic), for every length the dispatcher accepts, whichever internal algorithm it picks.", "quantifier": "every int length n >= 2 whose prime factors stay below the int range limit (see C26; n < 2^31 - 1, see C45), every complex input vector, every OpenMP schedule", "why_tests_cant": "tests sample lengths and inputs; 25 specialised power-of-two paths plus the mixed-radix recursion cover infinitely many lengths and a continuum of inputs", "anchors": ["src/otfft_algo.cpp: FFT0::setup, FFT0::fwd0, FFT::fwd0", "src/otfft_mixedradix.h: fwdfft, fwdfftany", "src/otfft_avxdif4.h", "src/otfft_avxdif8.h", "src/otfft_avxdif16.h", "src/otfft_avxdit4.h", "src/otfft_avxdit8.h", "src/otfft_sixstep.h", "src/otfft_sixstepsq.h", "src/otfft_eightstep.h"]}
{"id": "C02", "title": "fwd and fwdn normalise by exactly 1/n", "statement": "fwd(x) and fwdn(x) produce (1/n) * DFT(x).", "quantifier": "every length and input as in C01", "why_tests_cant": "scaling is applied in a different place in each kernel (end stage, radix-8 pre-stage, post pass); only a proof covers all of them", "anchors": ["src/otfft_algo.cpp: FFT0::fwd, FFT0::fwdn", "src/otfft_misc.h: scalepz2", "src/otfft_algo_mixed.cpp: fwd"]}
{"id": "C03", "title": "fwdu is the unitary DFT", "statement": "fwdu(x) produces (1/sqrt n) * DFT(x).", "quantifier": "every length and input as in C01", "why_tests_cant": "as C02", "anchors": ["src/otfft_algo.cpp: FFT0::fwdu", "src/otfft_misc.h: scalepz2, mysqrt", "src/otfft_algo_mixed.cpp: fwdu"]}
{"id": "C04", "title": "inv and inv0 compute the unnormalised inverse DFT", "statement": "inv(X) and inv0(X) produce x[j] = sum_k X[k]*exp(+2*pi*i*j*k/n).", "quantifier": "every length and input as in C01", "why_tests_cant": "inverse kernels are separately written code (conjugated or mirrored twiddle lookups) for every radix", "anchors": ["src/otfft_algo.cpp: FFT0::inv, FFT0::inv0", "src/otfft_mixedradix.h: invfft, invfftany"]}
{"id": "C05", "title": "invu and invn scale the inverse DFT by 1/sqrt(n) and 1/n", "statement": "invu(X) = (1/sqrt n)*IDFT(X), invn(X) = (1/n)*IDFT(X).", "quantifier": "every length and input as in C01", "why_tests_cant": "as C02", "anchors": ["src/otfft_algo.cpp: FFT0::invu, FFT0::invn", "src/otfft_algo_mixed.cpp: invu, invn"]}
{"id": "C06", "title": "Complex round trips restore the input", "statement": "inv after fwd, invn after fwd0, invu after fwdu, and the same pairs in the other order, return the original vector.", "quantifier": "every length and input as in C01", "why_tests_cant": "round trip holds for a continuum of inputs and all lengths; a pair of mutually cancelling errors is invisible to round trip tests, so it is proved from C01-C05", "anchors": ["src/otfft_algo.cpp: FFT::fwd, FFT::inv, FFT::fwd0, FFT::invn, FFT::fwdu, FFT::invu"]}
{"id": "C07", "title": "Alias entry points are bit-identical", "statement": "fwd and fwdn (and inv and inv0) of every transform class leave bit-identical memory, in any arithmetic including IEEE double.", "quantifier": "all inputs, all supported lengths (C26; Bluestein 1 <= n <= 2^29) and all arithmetics", "why_tests_cant": "needs equality for all inputs, not sampled agreement up to tolerance", "anchors": ["src/otfft_algo.cpp: FFT0::fwdn, FFT0::inv0, RFFT::fwdn, RFFT::inv0, DCT0::fwdn, DCT0::inv0, Bluestein::fwdn, Bluestein::inv0"]}
{"id": "C08", "title": "All transforms are linear", "statement": "Every entry point of ComplexFFT, RealFFT (forward and inverse), RealDCT and BluesteinFFT maps a*x+b*y to a times the result for x plus b times the result for y (a, b complex; real for the real classes).", "quantifier": "all scalars, all pairs of inputs, all supported lengths, thresholds, schedules", "why_tests_cant": "quantifies over pairs of vectors and scalars", "anchors": ["src/otfft_algo.cpp: FFT0", "src/otfft_algo.cpp: RFFT", "src/otfft_algo.cpp: DCT0, DCT", "src/otfft_algo.cpp: Bluestein"]}
{"id": "C09", "title": "Parseval and unitarity", "statement": "fwdu and invu preserve the energy sum |x[j]|^2; fwd0, inv, inv0 multiply it by n; fwd, fwdn, invn divide it by n (complex and Bluestein); the forward real transforms likewise; for the cosine transforms sum_k w_k X_k^2 = n sum_j x_j^2 with w_0 = 1 and w_k = 2 otherwise.", "quantifier": "all inputs, supported lengths, thresholds, schedules", "why_tests_cant": "quantifies over all inputs", "anchors": ["src/otfft_algo.cpp: FFT0", "src/otfft_algo.cpp: RFFT", "src/otfft_algo.cpp: DCT0, DCT", "src/otfft_algo.cpp: Bluestein"]}
{"id": "C10", "title": "Memory safety and footprint of complex transforms", "statement": "A transform on an n-point object reads and writes only inside x[0..n), its work area and its tables; it never reads an uninitialised cell, never writes a table, and leaves every other location unchanged.", "quantifier": "all supported lengths (C26), inputs, schedules and arithmetics", "why_tests_cant": "an out-of-bounds or uninitialised access can be silent in tests; the claim covers every address at every length", "anchors": ["src/otfft_avxdif4.h", "src/otfft_avxdif8.h", "src/otfft_avxdif16.h", "src/otfft_avxdit4.h", "src/otfft_avxdit8.h", "src/otfft_avxdit16.h", "src/otfft_mixedradix.h", "src/otfft_sixstepsq.h", "src/otfft_misc.h: init_Wt, init_Wr1, twid, twidT"]}
{"id": "C11", "title": "OpenMP schedules cannot change the result", "statement": "Every interleaving of the iterations of the parallel loops is free of data races, terminates, and leaves the same memory, for any arithmetic (so bit for bit on doubles).", "quantifier": "all interleavings, thread counts and static/dynamic schedules, all supported lengths (C26) and inputs", "why_tests_cant": "tests observe one schedule at a time; races are nondeterministic", "anchors": ["src/otfft_avxdif4omp.h", "src/otfft_avxdif8omp.h", "src/otfft_avxdif16omp.h", "src/otfft_avxdit4omp.h", "src/otfft_avxdit8omp.h", "src/otfft_avxdit16omp.h", "src/otfft_mixedradix.h: fwdfftp, invfftp, fwdfftanyp, invfftanyp", "src/otfft_sixstepsq.h", "src/otfft_eightstep.h", "src/otfft_algo.cpp: RFFT, DCT0, Bluestein"]}
{"id": "C12", "title": "Serial and OpenMP mixed-radix paths agree bit for bit", "statement": "For lengths handled by the mixed-radix algorithm the single-threaded and the OpenMP code path produce identical memory in any arithmetic, so crossing the size threshold does not change the definition of the result.", "quantifier": "all supported lengths (C26), inputs and arithmetics", "why_tests_cant": "needs equality of two code paths for all inputs including those on which only one path is ever taken at run time", "anchors": ["src/otfft_mixedradix.h: fwdfft, fwdfftp, invfft, invfftp"]}
{"id": "C13", "title": "All power-of-two kernels are interchangeable", "statement": "For n = 2^k every internal algorithm (radix 4, 8, 16 decimation in frequency or in time, six-step, eight-step, mixed radix) computes the same function, so the size based choice made by setup is unobservable (in exact arithmetic).", "quantifier": "all powers of two from 2 to 2^24 (beyond that setup always picks mixed radix), all inputs, all normalisation modes", "why_tests_cant": "tests only exercise the algorithm that the dispatcher picks for each size", "anchors": ["src/otfft_algo.cpp: FFT0::setup switch", "src/otfft_algo_dif4.cpp", "src/otfft_algo_dif8.cpp", "src/otfft_algo_dif16.cpp", "src/otfft_algo_dit4.cpp", "src/otfft_algo_dit8.cpp", "src/otfft_algo_dit16.cpp", "src/otfft_algo_mixed.cpp", "src/otfft_algo_sixstep.cpp"]}
{"id": "C14", "title": "Length 1: the complex transform is never defined, the real ones are", "statement": "After any history that ends with a successful set-up for length 1, every transform of a ComplexFFT object, whatever its argument and whatever memory contains, runs into undefined behaviour under every schedule (set-up leaves no algorithm for n = 1 and the transforms call through it); transforms of a RealFFT object of length 1 on valid arrays never do. (A user expects the identity; this states what the code does.)", "quantifier": "all entry points, arguments, memory contents, schedules and histories", "why_tests_cant": "the failing length is not tested and the outcome is undefined behaviour", "anchors": ["src/otfft_algo.cpp: FFT0::setup case 0, FFT0::fwd"]}
{"id": "C15", "title": "Real forward FFT computes the DFT with conjugate symmetry", "statement": "For even n, RealFFT fwd0(x,y) writes y[k] = sum_j x[j]*exp(-2*pi*i*j*k/n) for all 0<=k<n; in particular y[n-k] = conj(y[k]).", "quantifier": "all even n >= 4, n < 2^31, without prime factor above 46341 (see C26), all real inputs, all schedules", "why_tests_cant": "continuum of inputs, infinitely many lengths with three different table-construction branches", "anchors": ["src/otfft_algo.cpp: RFFT::setup, RFFT::fwd0"]}
{"id": "C16", "title": "Real FFT normalisations", "statement": "RealFFT fwd/fwdn scale by 1/n, fwdu by 1/sqrt n; inv/inv0 are the unnormalised inverse, invu and invn scale by 1/sqrt n and 1/n.", "quantifier": "all n as in C15, all real inputs / conjugate-symmetric spectra, all schedules", "why_tests_cant": "as C02", "anchors": ["src/otfft_algo.cpp: RFFT::fwd, RFFT::fwdu, RFFT::inv, RFFT::invu, RFFT::invn"]}
{"id": "C17", "title": "Real FFT round trip", "statement": "inv after fwd, invn after fwd0 and invu after fwdu restore every real signal.", "quantifier": "all n as in C15, all real inputs, all schedules", "why_tests_cant": "continuum of inputs and unbounded lengths", "anchors": ["src/otfft_algo.cpp: RFFT::fwd*, RFFT::inv*"]}
{"id": "C18", "title": "Length 2: the real FFT and the DCT are never defined", "statement": "After any history that ends with a successful set-up for length 2, every transform of a RealFFT or RealDCT object runs into undefined behaviour under every schedule, although 2 is a documented (even) length. (The inner complex FFT has length 1.)", "quantifier": "all entry points, arguments, memory contents, schedules and histories", "why_tests_cant": "the failing length is untested and is undefined behaviour", "anchors": ["src/otfft_algo.cpp: RFFT::setup, RFFT::fwd0, FFT0::setup"]}
{"id": "C19", "title": "Real forward transform leaves its input unmodified", "statement": "RealFFT fwd, fwd0, fwdu, fwdn never write the real input buffer and write exactly the n output cells.", "quantifier": "all n as in C15 and n = 1, all inputs, all schedules, any arithmetic", "why_tests_cant": "frame property over every address", "anchors": ["src/otfft_algo.cpp: RFFT::fwd, RFFT::fwd0, RFFT::fwdu"]}
{"id": "C20", "title": "DCT forward computes DCT-II", "statement": "DCT fwd0(x) replaces x by X[k] = sum_j x[j]*cos(pi*k*(2j+1)/(2n)); fwd and fwdn divide by n.", "quantifier": "all even n with 4 <= n < 2^30 whose half has no prime factor above 46341 (see C26, C45), all real inputs", "why_tests_cant": "continuum of inputs, infinitely many lengths", "anchors": ["src/otfft_algo.cpp: DCT0::setup, DCT0::fwd0, DCT0::fwd"]}
{"id": "C21", "title": "DCT round trip", "statement": "inv after fwd and invn after fwd0 restore every real signal.", "quantifier": "all even n with 4 <= n < 2^30 whose half has no prime factor above 46341 (see C26, C45), all real inputs", "why_tests_cant": "continuum of inputs, infinitely many lengths", "anchors": ["src/otfft_algo.cpp: DCT0::inv, DCT0::invn"]}
{"id": "C22", "title": "Bluestein computes the DFT for every length", "statement": "createBluesteinFFT(n): fwd0 is the DFT, fwd/fwdn the DFT/n, fwdu DFT/sqrt n, inv/inv0 the unnormalised inverse and invu, invn its scaled forms, for every natural number n (prime, odd, even).", "quantifier": "all n with 1 <= n <= 2^29, all inputs, all schedules", "why_tests_cant": "infinitely many inputs; primes of every size", "anchors": ["src/otfft_algo.cpp: Bluestein::setup, Bluestein::fwd ... Bluestein::invn"]}
{"id": "C23", "title": "Bluestein round trips and agreement with the ordinary FFT", "statement": "Bluestein inverse after forward restores the input, and at lengths where both exist Bluestein and ComplexFFT agree.", "quantifier": "all n with 1 <= n <= 2^29 (agreement: those that ComplexFFT supports, C26), all inputs", "why_tests_cant": "relational property over all inputs", "anchors": ["src/otfft_algo.cpp: Bluestein, FFT"]}
{"id": "C24", "title": "Bluestein integer arithmetic is exact exactly for n <= 2^29", "statement": "For n <= 2^29 there is no int or int64 overflow in setup or transforms; the padded length L is the least power of two >= 2n-1, satisfies L < 4n, L <= 2^30, and the wrap-around entries b[L-p] never collide with b[p]; the chirp index p*p mod 2n stays inside the table. For every larger n construction overflows.", "quantifier": "all n >= 1, all loop indices", "why_tests_cant": "the interesting sizes are too large to test", "anchors": ["src/otfft_algo.cpp: Bluestein::setup, Bluestein::fwd0"]}
{"id": "C25", "title": "Odd lengths are handled by the complex FFT", "statement": "Although only even lengths are documented, createComplexFFT(n) for odd n >= 3 computes the DFT (same guarantee as C01).", "quantifier": "all odd n >= 3 without prime factor above 46341 (see C26), all inputs", "why_tests_cant": "infinitely many lengths", "anchors": ["src/otfft_mixedradix.h: fwdend3, fwdend5, fwdfftany"]}
{"id": "C26", "title": "Exactly which lengths are supported", "statement": "On initialised client arrays, a complex transform of length n >= 1 is free of undefined behaviour if and only if n >= 2 and no prime factor of n exceeds 46341; a real or cosine transform of even length n >= 2 if and only if n >= 4 and no prime factor exceeds 46341. For every other such length every execution runs into undefined behaviour (an int product overflows, or a null pointer is called), e.g. n = 92698.", "quantifier": "all lengths n >= 1 (even n >= 2 for the real classes), entry points, inputs, schedules and histories", "why_tests_cant": "needs inspection of every index product at every size; failing sizes are large", "anchors": ["src/otfft_mixedradix.h: fwdfftany, invfftany, fwdfftanyp, invfftanyp"]}
{"id": "C27", "title": "Factory picks a built-in, detected, requested instruction set or throws", "statement": "create*(n,t) returns an implementation for an instruction set that was compiled in, detected on this CPU and compatible with t (best one first for AUTO); it throws std::domain_error exactly when there is none. It never silently substitutes another set for an explicit request.", "quantifier": "all CPU feature words, build configurations and requests", "why_tests_cant": "a test machine has one CPU and one build", "anchors": ["src/otfft.cpp: sysinfo, Factory::createComplexFFT, createRealFFT, createDCT, createBluesteinFFT"]}
{"id": "C28", "title": "When the chosen instruction set is executable on this CPU", "statement": "Creating an object raises an invalid-opcode fault exactly when CPUID reports a positive maximum leaf and OSXSAVE is clear (XGETBV is executed unconditionally). Otherwise, whenever the factory returns an object, the back end it selected uses only instructions the CPU and OS support, except exactly when it selected AVX2 on a CPU that reports AVX2 but not AVX.", "quantifier": "all CPUID/XCR0 words, all builds, classes, lengths and requests", "why_tests_cant": "test machines do not cover hypervisor-masked feature words", "anchors": ["src/otfft.cpp: sysinfo::sysinfo"]}
{"id": "C29", "title": "Deleting a created object never throws and reaches a destructor", "statement": "If create* returned an object on some machine, unique_ptr_delete on the same machine does not throw and deletes the object exactly once.", "quantifier": "all CPU feature words, build configurations and requests", "why_tests_cant": "a test machine has one CPU and one build", "anchors": ["src/otfft.cpp: unique_ptr_delete::operator()", "src/otfft_algo.cpp: unique_ptr_deleter"]}
{"id": "C30", "title": "setup can be called again with any new length", "statement": "After any history of setup calls and transforms, setup(n) followed by a transform gives exactly what a fresh object of length n gives.", "quantifier": "all histories of setup and transform calls", "why_tests_cant": "histories are unbounded", "anchors": ["src/otfft_algo.cpp: FFT0::setup, FFT::setup, RFFT::setup, DCT::setup, Bluestein::setup", "inc/otfft_complex.h: simd_array::setup"]}
{"id": "C31", "title": "No leak and no double free over any lifetime", "statement": "For any sequence of construct, setup, transform, destroy, with any allocation failing at any point, every block is freed exactly once and at destruction nothing is left allocated.", "quantifier": "all histories, all allocation failure patterns", "why_tests_cant": "failure injection at every point of every history is not testable", "anchors": ["inc/otfft_complex.h: simd_array", "src/otfft_algo.cpp: FFT0::setup catch(...)", "src/otfft_algo_dif4.cpp: setup2", "src/otfft_algo_dif8.cpp: setup2", "src/otfft_algo_dif16.cpp: setup2", "src/otfft_algo_dit4.cpp: setup2", "src/otfft_algo_dit8.cpp: setup2", "src/otfft_algo_dit16.cpp: setup2", "src/otfft_algo_mixed.cpp: setup2", "src/otfft_algo_sixstep.cpp: setup2"]}
{"id": "C32", "title": "What a setup that throws leaves behind", "statement": "After any history, whatever setup(n) does (throw bad_alloc or not), the object can be destroyed or set up again without undefined behaviour, and a later successful setup gives an object that behaves like a fresh one. But an object whose last setup threw must not be used for a transform: for every n (n != 1 for ComplexFFT, n >= 4 for RealFFT and RealDCT, 2 <= n <= 2^29 for Bluestein) setup(n) can fail so that every transform afterwards runs into undefined behaviour under every schedule.", "quantifier": "all histories, lengths, allocation failure points; all arguments, memory contents and schedules of the transform", "why_tests_cant": "crash points are many and the effect is undefined behaviour", "anchors": ["src/otfft_algo.cpp: FFT0::setup, RFFT::setup, DCT0::setup, Bluestein::setup", "inc/otfft_complex.h: simd_array::setup"]}
{"id": "C33", "title": "Several threads: what may be shared and what may not", "statement": "After any program has made objects, any number of threads may run at the same time, each making, setting up, using and deleting objects of its own (or objects handed over to it) on arrays of its own, and all calling common RealFFT, FFT0 and DCT0 objects: there is no data race and no other undefined behaviour, all threads end, each thread leaves in its arrays exactly what it leaves when it runs alone, nothing leaks, and the starting thread can go on with the objects that are left. If two threads call one ComplexFFT, RealDCT or Bluestein object at the same time, even on disjoint arrays, a data race is possible (for every length that needs the object's work area).", "quantifier": "all client programs of all threads, all interleavings of threads and OpenMP tasks, all lengths, inputs and allocation failures", "why_tests_cant": "interleavings and programs cannot be enumerated by tests", "anchors": ["README.md: multi-threaded", "src/otfft_algo.cpp: FFT0::fwd, FFT::fwd, RFFT::fwd, DCT::fwd, Bluestein::fwd"]}
{"id": "C34", "title": "SIMD primitives equal their complex-arithmetic meaning on every instruction set", "statement": "On every instruction-set variant, for all operands: each register type (1, 2, 4, 8 or 16 complex numbers, native or emulated) does in every lane exactly what the one-number primitive does; in exact arithmetic the primitives add, sub, mul, conj, times i, times exp(+-i*pi/4), times the 16th roots, scaling are the complex operations; concatenation, broadcast, swap and half extraction move the right lanes; complex_t's operators are the complex operations; the decimal constants in the source round to the same double as the numbers they stand for.", "quantifier": "all operand values, every combination of SSE2/SSE3/FMA/AVX/AVX-512, all double arithmetics (lane-wise part), exact arithmetic (meaning part)", "why_tests_cant": "each build exercises one variant; equality is over all values", "anchors": ["src/otfft_misc.h: xmm, ymm, zmm, emm, amm, bmm", "inc/otfft_complex.h: complex_t"]}
{"id": "C35", "title": "Weight tables are completely and correctly initialised", "statement": "After any history, every cell a transform reads (table, work area or argument) has been written before. In exact arithmetic the tables hold: the n+1 powers of exp(-2 pi i/n) (ComplexFFT, n not a power of two), (1 + i exp(-2 pi i t/n))/2 for t <= n (RealFFT), exp(i pi t/(2n)) for t <= n (RealDCT), exp(-pi i t/n) for t <= 2n (Bluestein), in a block owned by the object.", "quantifier": "all lengths, every branch of table construction, serial and OpenMP", "why_tests_cant": "the symmetric fills leave subtle holes only visible at special lengths", "anchors": ["src/otfft_misc.h: init_W, init_Wt, init_Wr1", "src/otfft_algo_mixed.cpp: setup", "src/otfft_algo.cpp: RFFT::setup, DCT0::setup, Bluestein::setup", "src/otfft_algo_sixstep.cpp: init_Wnxn, init_W8xm"]}
{"id": "C36", "title": "Factor search and recursion of the mixed-radix transform", "statement": "The factor search returns the smallest prime factor of the remaining length whenever it returns, and fails (int overflow) exactly when there is no factor up to 46341 although the remaining length is at least 46339^2; a parallel transform of a non-power-of-two length n makes at most log2(n) passes over the data plus one for scaling; no execution of any transform is infinite.", "quantifier": "all lengths n, all starting points of the search, all schedules", "why_tests_cant": "termination for all n", "anchors": ["src/otfft_mixedradix.h: fwdfft, fwdfftany"]}
{"id": "C37", "title": "Length-0 objects are inert", "statement": "After any history whose last setup was for length 0, transforms of ComplexFFT, RealFFT and RealDCT objects, and of Bluestein objects constructed with length 0 or a negative length, read and write no memory at all and finish. (setup(n) with n < 1 on a Bluestein object of another length is ignored: the object keeps its length.)", "quantifier": "all histories, entry points, arguments, memory contents and schedules", "why_tests_cant": "frame property over all of memory", "anchors": ["src/otfft_algo.cpp: FFT0::setup default case, RFFT::fwd, DCT0::fwd, Bluestein::fwd", "src/otfft_mixedradix.h: fwdfft (N<2)"]}
{"id": "C38", "title": "Bluestein setup ignores non-positive lengths", "statement": "Bluestein setup(n) with n < 1 leaves the object exactly as it was.", "quantifier": "all int n < 1 (negative ones included), all prior histories", "why_tests_cant": "unbounded histories", "anchors": ["src/otfft_algo.cpp: Bluestein::setup"]}
{"id": "C39", "title": "Circular convolution theorem", "statement": "invn(fwd0(a) .* fwd0(b)) is the circular convolution of a and b for every length.", "quantifier": "all supported lengths (C26), all pairs of inputs", "why_tests_cant": "quantifies over pairs of vectors", "anchors": ["src/otfft_algo.cpp: FFT::fwd0, FFT::invn"]}
{"id": "C40", "title": "Six-step index table is a bijection that fits its integer type", "statement": "The (row, col) table used by the six-step twiddle pass enumerates every 2x2 block of the upper triangle exactly once and all entries fit in short for every supported size.", "quantifier": "all supported log sizes", "why_tests_cant": "tests check the transform only through tolerances", "anchors": ["src/otfft_algo_sixstep.cpp: init_Wnxn", "src/otfft_sixstep.h: index_t", "src/otfft_algo_sixstep.cpp: setup2"]}
{"id": "C42", "title": "Work-area interfaces FFT0 and DCT0 equal the self-contained classes", "statement": "A sequence of transforms made through FFT0 (DCT0) with work areas supplied by the caller, whatever those areas contain (even uninitialised), leaves in x exactly the result the same sequence leaves through ComplexFFT (RealDCT), and computes the documented DFT/DCT; a call writes only the arrays it is given and no cell of the object; any valid lifetime of such an object has no undefined behaviour and leaks nothing.", "quantifier": "all valid lengths, inputs, work areas disjoint from x (and from one another), call sequences, thresholds, schedules", "why_tests_cant": "quantifies over the contents of scratch memory, call histories and schedules", "anchors": ["src/otfft_base.h: FFT0, DCT0", "README.md: lines 85-109, 183-203"]}
{"id": "C41", "title": "Many objects of all classes can be used side by side", "statement": "A client program that creates, uses, re-sets-up and deletes any number of transform objects of any classes in any order, respecting the documented preconditions, never has undefined behaviour, never changes memory it did not pass to a transform, leaks nothing once all objects are deleted, and every transform gives exactly what it gives on an object constructed just for it; objects share no memory.", "quantifier": "all client programs (trees branching on constructor/setup exceptions), all allocation outcomes, all schedules, all lengths and inputs, any arithmetic", "why_tests_cant": "programs, interference patterns between objects and allocation failures are unbounded", "anchors": ["inc/otfft.h: Factory, createComplexFFT, createRealFFT, createDCT, createBluesteinFFT", "src/otfft_algo.cpp: FFT0, FFT, RFFT, DCT0, DCT, Bluestein", "inc/otfft_complex.h: simd_array"]}
{"id": "C43", "title": "Results do not depend on the instruction set", "statement": "For the same input all builds without fused multiply-add (scalar, SSE2, SSE3/AVX, AVX2) return bit-identical results from every entry point of every class; in exact arithmetic a build for any instruction set, with or without FMA, is the one whose values the other properties describe.", "quantifier": "all instruction sets, classes, supported lengths (C26), entry points, inputs, thread counts and schedules; every double arithmetic with IEEE 754's sign laws", "why_tests_cant": "a test machine runs one instruction set at a time on some inputs; bit-identity is over all inputs and all pairs of builds", "anchors": ["src/otfft_misc.h: mulpz, v8xpz, haddpz under __SSE3__, __FMA__, __AVX__"]}
{"id": "C44", "title": "Negative lengths are rejected by an exception", "statement": "Constructing a ComplexFFT or RealDCT object with a negative length, or a RealFFT, FFT0 or DCT0 object with a length below -1, has no undefined behaviour and always throws, leaving the blocks of the client unchanged and no new block allocated; setup with such a length on an existing object always throws after any history. RealFFT accepts length -1: the object is inert. (Bluestein ignores lengths below 1: C38.)", "quantifier": "all negative int values, all histories, all allocation outcomes, any arithmetic", "why_tests_cant": "about 2^31 lengths, any history of the object, any memory", "anchors": ["src/otfft_algo.cpp:FFT0::setup", "src/otfft_algo.cpp:FFT::setup", "src/otfft_algo.cpp:RFFT::setup", "src/otfft_algo.cpp:DCT::setup", "inc/otfft_complex.h:simd_array::setup"]}
{"id": "C45", "title": "Exactly which int lengths overflow in construction and setup", "statement": "Over all values of type int, constructing an object of length n, or calling setup(n) after any history, has undefined behaviour exactly for n = 2^31-1 (ComplexFFT, RealFFT, FFT0: n+1 overflows), exactly for n >= 2^30 (RealDCT, DCT0: 2*n overflows; so the even length 2^30 is unusable), exactly for n > 2^29 (Bluestein: L*=2 overflows).", "quantifier": "all 2^32 values of int, all histories, all allocation outcomes, any arithmetic", "why_tests_cant": "the boundary cases need gigabytes of memory and every history of the object", "anchors": ["src/otfft_algo.cpp:RFFT::setup", "src/otfft_algo.cpp:DCT0::setup", "src/otfft_algo.cpp:Bluestein::setup", "src/otfft_algo_mixed.cpp:setup"]}
{"id": "C46", "title": "Accuracy of the complex transforms in double precision", "statement": "With IEEE 754 binary64 arithmetic (round to nearest, sin/cos within 1 ulp), for every supported length n, every normalisation, and all finite inputs of magnitude at most M, where M >= 2^-970 and n M <= 2^1019, every output of a ComplexFFT transform is finite and differs from the exact normalised (inverse) DFT of the input by at most W(n) 2^-52 factor n M, where W(n) is 50 log2 n for powers of two, and in general a sum over the prime factors of n, less than 70 n. A forward transform followed by the matching inverse returns the input up to 2 W(n) 2^-52 n M (if n^2 M <= 2^1019).", "quantifier": "all supported lengths (C26), inputs, instruction sets (with and without FMA), threshold settings, entry points, memory contents and schedules", "why_tests_cant": "a worst-case bound over all input vectors and all lengths cannot be sampled; no overflow/NaN appears for any finite input in range", "anchors": ["inc/otfft_types.h", "src/otfft_avxdif16.h", "src/otfft_mixedradix.h", "src/otfft_sixstepsq.h", "src/otfft_misc.h:mulpz", "src/otfft_misc.h:expj"]}
{"id": "C47", "title": "Accuracy of the real transforms and the DCT in double precision", "statement": "With IEEE 754 binary64 arithmetic (round to nearest, sin/cos within 1 ulp), for every even supported length n and all finite real inputs of magnitude at most M (M >= 2^-970 and n M <= 2^1016; n^2 M <= 2^1014 for pairs), every output of RealFFT forward, of RealFFT inverse on the first n/2+1 bins of a conjugate-symmetric spectrum, and of RealDCT is finite and differs from the exact normalised transform by at most (W(n/2)+84) 2^-52 3 n factor M (RealFFT) or (W(n/2)+117) 2^-52 4.5 n factor M (DCT), W as in C46. Matching forward/inverse pairs give the input back up to a bound of the same kind.", "quantifier": "all supported lengths (even n, see C26), inputs, instruction sets (with and without FMA), threshold settings, entry points, memory contents and schedules", "why_tests_cant": "a worst-case bound over all input vectors and all lengths cannot be sampled", "anchors": ["src/otfft_algo.cpp:RFFT", "src/otfft_algo.cpp:DCT0", "src/otfft_misc.h", "inc/otfft.h:RealFFT", "inc/otfft.h:RealDCT"]}
{"id": "C48", "title": "Accuracy of Bluestein's algorithm in double precision", "statement": "With IEEE 754 binary64 arithmetic (round to nearest, sin/cos within 1 ulp), for every length n from 1 to 2^29 (prime lengths included), every normalisation and all finite inputs of magnitude at most M (M >= 2^-970 and n^3 M <= 2^1013; n^4 M <= 2^1012 for pairs), every output of a Bluestein transform is finite and differs from the exact normalised (inverse) DFT by at most (150 ceil(log2 n) + 207) 2^-52 16 n^2 factor M; a transform and the matching inverse, in either order, give the input back up to three times that.", "quantifier": "all lengths up to 2^29, inputs, instruction sets (with and without FMA), threshold settings, entry points, memory contents and schedules", "why_tests_cant": "a worst-case bound over all input vectors and all lengths cannot be sampled", "anchors": ["src/otfft_algo.cpp:Bluestein", "src/otfft_base.h:Bluestein", "src/otfft_misc.h:mulpz"]}
{"id": "C49", "title": "From the factory to the result", "statement": "A program that asks the factory for a transform of length n with any instruction-set request, makes calls through the returned smart pointer and lets it go out of scope gets, on every machine where the operating system enabled XSAVE and where AVX2 implies AVX: std::domain_error and no other effect if no back end that is compiled in, detected and allowed by the request exists; otherwise never an illegal instruction, never std::terminate, no undefined behaviour, no leak (the object block included), and results that are the exact transform in exact arithmetic and within the bounds of C46, C47 and C48 in double precision, whichever back end was chosen and whatever SSE3/AVX/FMA flags its files were compiled with.", "quantifier": "all builds, processors, requests, compiler flags per back end, supported lengths (C26), inputs, memory contents, schedules, allocation outcomes and client programs", "why_tests_cant": "a test machine is one processor with one build and one compiler; the combination of selection, allocation, schedule, transform and deletion cannot be enumerated", "anchors": ["src/otfft.cpp:Factory", "src/otfft_algo.cpp:Factory::create, Factory::delete", "inc/otfft.h:ComplexFFTPtr, Factory", "CMakeLists.txt"]}
{"id": "C50", "title": "Exact symmetries of the rounded transforms", "statement": "Whatever rounding does: if a relation between doubles is preserved by the arithmetic operations (sums, differences, negation, products with and quotients by a common number, fused multiply-add with a common factor), then two calls of the same function on related inputs give related results. In particular, in IEEE 754 arithmetic with a symmetric rounding the transform of -x is exactly minus the transform of x (also with infinities, NaN and overflow, up to signs of zeros); signs of zeros in the input influence signs of zeros only; replacing inputs by NaN changes outputs to NaN or not at all; without overflow and underflow the transform of 2^k x is exactly 2^k times the transform of x.", "quantifier": "all classes, functions, supported lengths (C26), inputs, instruction sets, threshold settings, memories, schedules, and all arithmetics and relations with the stated closure", "why_tests_cant": "a property of pairs of runs over all inputs, including every special value; a data-dependent branch or a kernel that treats one position differently may break it for rare values only", "anchors": ["src/otfft_misc.h", "src/otfft_algo.cpp", "src/otfft_mixedradix.h", "src/otfft_sixstepsq.h"]}
{"id": "C51", "title": "A NaN or infinity is never lost", "statement": "If an element of the input of a complex or Bluestein transform contains a NaN, every element of the result contains a NaN; if it contains a NaN or an infinity, every element of the result contains one; the same for every element of the spectrum of a real signal. In general (also inverse real transforms and cosine transforms), an output component that is a number (or finite) does not depend, mathematically, on the input components that are not.", "quantifier": "all supported lengths (C26), inputs, entry points, instruction sets, threshold settings, memories, schedules, and all arithmetics in which the operations absorb the bad values", "why_tests_cant": "needs every position of the bad value, every length and every kernel; an optimised kernel that skips a term known to be multiplied by zero would pass most tests", "anchors": ["src/otfft_misc.h", "src/otfft_algo.cpp", "src/otfft_mixedradix.h", "src/otfft_sixstepsq.h", "src/otfft_algo.cpp:Bluestein"]}
{"id": "C52", "title": "complex_t: assignment operators and aliasing", "statement": "z += w, z -= w and z *= w on complex_t objects assign the sum, difference and product of the old values and change nothing else, also when w is z itself. z *= x and z /= x with a double x do so unless x is a reference to z's own real part: z *= z.Re and z /= z.Re are wrong except for real z or real part 1 (or 0 for *=). proj(z) is 2z/(|z|^2+1), not std::proj; polar, abs and arg are inverse to each other; z * x with a double x equals x * z in exact arithmetic but gives NaN for infinite imaginary part.", "quantifier": "all memories, addresses and values, any arithmetic", "why_tests_cant": "aliasing of a reference argument with the object is a relation between addresses; tests use distinct temporaries", "anchors": ["inc/otfft_complex.h:complex_t", "inc/otfft_complex.h:proj, arg, polar"]}
{"id": "C53", "title": "simd_array: ownership", "statement": "A block of code that uses simd_array objects (construction with and without length, setup, destroy, element writes within the length) without copying them has no undefined behaviour, whatever the allocator returns and wherever it throws, and at its end gives back all memory and has changed no other memory. Once an array that holds memory is copied or assigned to another one, no continuation without further assignments can come to its end without undefined behaviour.", "quantifier": "all client programs over any number of arrays, allocation outcomes, memories", "why_tests_cant": "needs all client programs and all allocator results; a double free may pass unnoticed when the block is reused", "anchors": ["inc/otfft_complex.h:simd_array, simd_malloc, simd_free"]}
{"id": "C54", "title": "bounded work and memory", "statement": "Counting loads and stores over all threads: after any history a complex transform of length n makes at most n(3S+2) of them, S the sum of the prime factors of n (2n(log2 n + 5) for a power of two, n(3P log2 n + 2) if no prime factor exceeds P), and every complete one at least 2pn if a prime p >= 7 divides n; real and cosine transforms at most the bound for n/2 plus 4n+4 and 10n+7; Bluestein at most 12n(2 log2 n + 17) for every n, so for a prime length >= 199 always less than the complex class. setup(n) and the constructors make O(n) accesses and request at most 3n+1 (complex), 2n+2 (real), 5n+3 (DCT), 22n (Bluestein) elements. A whole client program stays within the sum of the budgets of its operations.", "quantifier": "all lengths, histories, schedules, thresholds, allocation outcomes, arithmetics, client programs", "why_tests_cant": "a timing test samples a few lengths and schedules on one machine; a bound must cover every length and interleaving", "anchors": ["src/otfft_mixedradix.h:fwdfftany", "src/otfft_avxdif4.h", "src/otfft_avxdit16omp.h", "src/otfft_avxdif4omp.h", "src/otfft_avxdif8.h", "src/otfft_avxdif8omp.h", "src/otfft_avxdif16.h", "src/otfft_avxdif16omp.h", "src/otfft_avxdit4.h", "src/otfft_avxdit4omp.h", "src/otfft_avxdit8.h", "src/otfft_avxdit8omp.h", "src/otfft_avxdit16.h", "src/otfft_sixstep.h", "src/otfft_sixstepsq.h", "src/otfft_eightstep.h", "src/otfft_algo.cpp:FFT0::setup, RFFT::setup, DCT0::setup, Bluestein::setup", "src/otfft_base.h:Bluestein"]}
{"id": "C55", "title": "Fourier identities", "statement": "If a transform takes u to U then: rotating u by s places multiplies bin k by exp(-+2 pi i s k/n); multiplying u by a tone rotates the bins; reversing u reverses the bins; conjugating u conjugates and reverses them; the opposite transform of equal normalisation gives the bins reversed, and equals the transform between two conjugations; applying a transform twice gives u reversed, scaled; an impulse becomes a tone, an integer tone an impulse. Real: rotation and reversal (conjugate bins). DCT-II: reversal flips the sign of odd bins.", "quantifier": "all vectors, shifts, entry points, supported lengths, thresholds, schedules, memory states", "why_tests_cant": "relates results on infinitely many pairs of inputs", "anchors": ["src/otfft_algo.cpp: FFT0", "src/otfft_algo.cpp: RFFT", "src/otfft_algo.cpp: DCT0, DCT", "src/otfft_algo.cpp: Bluestein"]}
{"id": "C56", "title": "The largest bin is the bin of the tone", "statement": "The spectrum of a tone whose frequency is within half a bin of bin f is strictly largest at f (complex and Bluestein classes, any entry point); of a sine of any phase within a quarter bin of f (2 <= f <= n/2-2) among bins 0..n/2 (real class). In double precision: samples within delta of an integer-frequency tone (complex, Bluestein) or sine (real, 0<f<n/2) have the largest bin at f whenever 2(delta + err) < amplitude resp. 4(delta + err) < amplitude, err the rounding bound of C46/C47/C48.", "quantifier": "all supported lengths (C26), frequencies, phases, amplitudes, noise vectors below the bound, instruction sets, thresholds, schedules", "why_tests_cant": "otfft_find_peak_test.cpp samples five signals", "anchors": ["unit_tests/otfft_find_peak_test.cpp", "src/otfft_algo.cpp: RFFT", "src/otfft_algo.cpp: FFT0", "src/otfft_algo.cpp: Bluestein"]}
{"id": "C57", "title": "Odd lengths of the real and cosine classes", "statement": "Setting up RealFFT or RealDCT for an odd length is rejected only by an assert, absent from release builds. There: a forward real transform of odd n (n/2 supported) ignores the last sample completely and its bin 0 is the scaled sum of the others, so it is wrong unless the last sample is 0; an inverse one never writes the last sample; other odd n >= 3 (e.g. 3) have undefined behaviour in every execution; a RealDCT transform of any odd n >= 3 has undefined behaviour in every execution, and DCT0's forward transform writes x[n].", "quantifier": "all odd n >= 3, all histories of the object, all input values, entry points, thresholds, schedules, arithmetics", "why_tests_cant": "undefined behaviour need not show in a test run; quantifies over all odd lengths, inputs and histories", "anchors": ["src/otfft_algo.cpp: RFFT::setup, RFFT::fwd, RFFT::inv, DCT0::setup, DCT0::fwd, DCT0::inv", "inc/otfft.h: RealFFT, RealDCT"]}
{"id": "C58", "title": "Relative accuracy in the 2-norm (RMS) in double precision", "statement": "With IEEE 754 binary64 arithmetic (round to nearest, sin/cos within 1 ulp), for every supported length n, every normalisation, and all finite inputs x with 2-norm between 2^-960 and 2^1017/sqrt(n), every output of a ComplexFFT transform is finite and the 2-norm of the error vector is at most W2(n) 2^-52 times the 2-norm of the exact result, where W2(n) = 55 log2 n for powers of two and less than 220 n for every supported n: the relative RMS error does not depend on what the input looks like. So signal energy is preserved up to that relative error, and a transform followed by its matching inverse returns the input with relative 2-norm error at most 2 W2(n) 2^-52.", "quantifier": "all supported lengths (C26), inputs, instruction sets (with and without FMA), threshold settings, entry points, memory contents and schedules", "why_tests_cant": "a worst-case relative bound over all input vectors and all lengths cannot be sampled", "anchors": ["inc/otfft_types.h", "src/otfft_avxdif16.h", "src/otfft_mixedradix.h", "src/otfft_sixstepsq.h", "src/otfft_misc.h:mulpz", "src/otfft_misc.h:expj"]}
{"id": "C59", "title": "Constants of the unitary normalisation", "statement": "The compile-time square root behind the unitary normalisation (Newton recursion until two iterates are equal) ends for every power of two that fits an int; in IEEE 754 double precision (ties to even) it is exact for even exponents and one ulp below the nearest double for odd ones, but the factor 1.0/mysqrt(N) that transforms multiply with is the double nearest to 1/sqrt(N) for every power of two. With any double precision arithmetic, whenever it ends for an N <= 2^31, its relative error is at most 2.6 * 2^-53. The factor 1.0/sqrt(N) of the real transforms is one ulp too small for every odd exponent.", "quantifier": "all powers of two that fit an int (exact values); all N up to 2^31 and all double arithmetics, tie rules and numbers of iterations (error bound); all odd exponents of powers of two that fit an int (library sqrt)", "why_tests_cant": "an unbounded recursion with a floating-point equality as its stopping rule; the bound quantifies over arithmetics and N", "anchors": ["src/otfft_misc.h: sqrt_aux, mysqrt, scalepz, scalepz2", "src/otfft_algo.cpp: RFFT::fwdu"]}
{"id": "C60", "title": "IEEE 754 doubles: finite input gives finite output", "statement": "With IEEE 754 double precision arithmetic as it is (53 bits, ties to even, gradual underflow, signed zeros, infinities, NaN), a transform of finite samples gives a finite result without infinity or NaN as long as no sample exceeds 2^1019/n (complex classes), 2^1016/n (real and cosine classes) or 2^1013/n^3 (Bluestein). The assumptions of the accuracy theorems hold of this arithmetic. The bound is needed: fwd of three samples equal to the largest double gives an infinity although the exact result is that double.", "quantifier": "all supported lengths (C26), all finite inputs including subnormal numbers, all entry points, instruction sets and thread thresholds", "why_tests_cant": "the inputs and lengths are unbounded, overflow and underflow happen in intermediate results only", "anchors": ["src/otfft.cpp: ComplexFFT, RealFFT, RealDCT, BluesteinFFT", "src/otfft_mixedradix.h: fwdfft, invfft", "src/otfft_misc.h: scalepz"]}
{"id": "C61", "title": "Real spectra are conjugate symmetric bit for bit", "statement": "The forward real transforms (fwd, fwd0, fwdu, fwdn) write y[n-k] as exactly the conjugate of y[k] (same real part, negated imaginary part, also for infinities and NaN) for 0 < k < n/2, and the imaginary parts of y[0] and y[n/2] are exactly +0, whatever the rounding of the arithmetic.", "quantifier": "all supported even lengths and 1, all inputs including infinities and NaN, all forward entry points, instruction sets, thread counts and schedules, every floating-point arithmetic", "why_tests_cant": "bitwise equality on samples says nothing about other inputs, lengths or schedules", "anchors": ["src/otfft_algo.cpp: RFFT::fwd, fwd0, fwdu, fwdn", "src/otfft_misc.h: cnjpz"]}
{"id": "C62", "title": "RMS accuracy of the real and cosine transforms in double precision", "statement": "In IEEE double precision, for data of finite doubles of 2-norm at most A (not tiny, and sqrt(n)*A a factor 2^10 below overflow), every output of RealFFT and RealDCT is finite and the 2-norm of the error of the whole result vector is at most W*2^-52 times factor*sqrt(n)*A (sqrt(2) more for the DCT-III), W growing like 55*log2(n) for powers of two: so the relative error of a real spectrum is at most W*2^-52 whatever the signal, and a transform followed by its inverse gives the signal back within 2W*2^-52 (cosine: sqrt(2) times that) of its 2-norm.", "quantifier": "all supported lengths, all finite inputs in range, all entry points and matching pairs, instruction sets with and without FMA, thread thresholds and schedules, every arithmetic obeying the IEEE rounding laws", "why_tests_cant": "error bounds have to hold for every input and every order of rounding; sampled inputs never show the worst case", "anchors": ["src/otfft_algo.cpp:RFFT", "src/otfft_algo.cpp:DCT0", "src/otfft_algo.cpp:DCT", "src/otfft_misc.h:scalepz", "inc/otfft.h:RealFFT", "inc/otfft.h:RealDCT"]}
{"id": "C63", "title": "Accuracy of fast convolution, and exact convolution of integers", "statement": "In IEEE double precision, transforming two finite vectors of 2-norms at most A and B (between 2^-400 and 2^400) with forward entry points, multiplying the spectra entry by entry with complex_t's operator* and transforming back gives a finite vector whose distance (2-norm) from the circular convolution, times the product of the normalisations and n, is at most (4W+6)*2^-52 times that factor times sqrt(n)*A*B, W growing like 55*log2(n). So when the vectors hold integers and (4W+6)*2^-52*sqrt(n)*A*B < 1/2, rounding the real parts of the result to the nearest integer gives exactly the circular convolution of the integers: no digit of a product of big numbers computed this way is ever wrong.", "quantifier": "all supported lengths, all finite inputs in range, all combinations of forward and inverse entry points (the integer statement: those whose normalisations cancel), instruction sets with and without FMA, thread thresholds and schedules, every arithmetic obeying the IEEE rounding laws", "why_tests_cant": "one wrong digit among all pairs of vectors is enough to refute it; sampled products never show the worst case of the rounding errors", "anchors": ["src/otfft_algo.cpp: FFT::fwd0, FFT::fwd, FFT::inv, FFT::invn", "inc/otfft_complex.h: complex_t", "inc/otfft.h: ComplexFFT"]}
{"id": "C64", "title": "Exact conjugation symmetry", "statement": "For every length 2^k, 1 <= k <= 24, calling an inverse entry point on the conjugated input gives exactly, bit for bit up to signs of zeros and not only up to rounding, the conjugate of what the forward entry point with the same normalisation (fwd0/inv0, fwd0/inv, fwdu/invu, fwd/invn, fwdn/invn) gives on the input; also when inputs contain infinities or NaN or when results overflow. So code that gets the inverse transform by conjugating before and after a forward transform computes the same numbers as the library's inverse.", "quantifier": "all inputs (any double values including infinities and NaN), all k in 1..24, the five entry point pairs, all instruction sets, thread thresholds and schedules; every arithmetic whose rounding is symmetric in the sign", "why_tests_cant": "one input whose last bit differs refutes it; forward and inverse kernels are separate hand-written code for every radix and instruction set", "anchors": ["src/otfft_algo.cpp: FFT::fwd0, FFT::inv, FFT::fwdu, FFT::invu, FFT::fwdn, FFT::invn", "inc/otfft.h: ComplexFFT", "src/otfft_misc.h: mulpz, v8xpz, w8xpz, h1xpz, h3xpz, hfxpz, hdxpz"]}
{"id": "C65", "title": "Multiplying the input by the imaginary unit", "statement": "Replacing every element x of the input by i*x, that is (-x.Im, x.Re), replaces every element of the result by exactly i times it (up to signs of zeros): a complex transform of purely imaginary data gives the very same digits as that of the real data. It holds for every length in builds without fused multiply-add, and for powers of two in builds with it; the Bluestein transform has it in builds without fused multiply-add.", "quantifier": "all inputs including infinities and NaN, all lengths and entry points, all instruction sets within the stated restriction, thread thresholds and schedules; every arithmetic whose rounding is symmetric in the sign", "why_tests_cant": "one input with a different last bit refutes it; it has to hold through every kernel of every radix", "anchors": ["inc/otfft.h: ComplexFFT, BluesteinFFT", "src/otfft_algo.cpp: FFT0, Bluestein", "src/otfft_misc.h: mulpz, jxpz"]}
{"id": "C66", "title": "Normalisation is exact", "statement": "For a power-of-two length n = 2^k, every element of a normalised result (fwd, fwdn, invn) is exactly the corresponding element of the unnormalised result (fwd0, inv, inv0) divided by n, bit for bit, as long as nothing overflows or underflows: the library normalises inside its passes, at a different place for each kernel, and loses no digit by it. For every other length it is the unnormalised result multiplied once, in floating point, by the rounded 1/n (or, for the unitary entry points, by the rounded square root of it).", "quantifier": "all representable inputs, all 2^k with 1 <= k <= 30 and all other supported lengths, the normalised/unnormalised entry point pairs, all instruction sets, thread thresholds and schedules", "why_tests_cant": "one input with a different last bit refutes it; the factor is applied in a different pass in each kernel", "anchors": ["src/otfft_algo.cpp: FFT::fwd0, FFT::fwd, FFT::fwdn, FFT::inv, FFT::invn", "inc/otfft.h: ComplexFFT", "src/otfft_misc.h: scalepz2"]}
{"id": "C67", "title": "Impulses and constants are transformed exactly", "statement": "Without any rounding error: fwd0 of an impulse (the double pair c in element 0, zero elsewhere) is c in every element, for every length; for lengths 2^k, k <= 24, so are inv and inv0. For lengths n = 2^k, k <= 24, a constant signal c gives exactly n*c in element 0 and exactly zero in every other one (fwd0, inv, inv0), and the normalised transforms (fwd, fwdn, invn) give exactly c in element 0: a DC signal leaks nothing into other bins, not even rounding noise. The restriction of the inverse is necessary: the inverse transform of length 10 of (1,0,...,0) has a non-zero imaginary part in element 1.", "quantifier": "all representable c, all lengths as stated, all instruction sets, thread thresholds and schedules; zeros up to their sign; no overflow", "why_tests_cant": "every kernel of every radix, both table layouts and the six- and eight-step paths must have exact ones in the right places; a test covers single lengths on one machine", "anchors": ["inc/otfft.h: ComplexFFT", "src/otfft_algo.cpp: FFT::fwd0, FFT::inv, FFT::fwd, FFT::invn", "src/otfft_mixedradix.h: fwdfft"]}
{"id": "C68", "title": "Real convolution and polynomial products", "statement": "Transform two real signals a and b with fwd0 of RealFFT, multiply the first n/2+1 entries of the results, apply invn: the output is the circular convolution of a and b (for Bluestein the same with all n entries of complex signals, any n up to 2^29). In IEEE double precision, whatever entry points are combined, all results are finite and the 2-norm of the error is at most (4(errWeight2(n/2)+336)+6) 2^-52 times sqrt(n)|a||b|. Hence products of integer polynomials, padded with zeros above the degree of the product, are exact after rounding to the nearest integer as long as that bound is below 1/2; for example numbers of half a million decimal digits with transforms of length 2^20.", "quantifier": "all supported real lengths, all signals (2-norms between 2^-400 and 2^400 for the accuracy), all integer polynomials within the bound, all normalisations, instruction sets, thread thresholds and schedules; operator* of complex_t for the product", "why_tests_cant": "the bound is for the worst case input of every length; random tests see errors far below it and never the worst case, and exactness of an integer product must hold for all coefficients", "anchors": ["inc/otfft.h: RealFFT", "src/otfft_algo.cpp: RFFT::fwd0, RFFT::invn, Bluestein::fwd0, Bluestein::invn", "inc/otfft_complex.h: operator*"]}
{"id": "C69", "title": "Bluestein accuracy in the root-mean-square sense", "statement": "In IEEE double precision every result of every transform of a Bluestein object is finite, and the 2-norm of the difference from the exact transform is at most (165 ceil(log2 n) + 222) * 6 sqrt(n) * 2^-52 times the 2-norm of the exact result. A transform and the matching inverse one, in either order, give the input back with three times that relative error. For lengths up to 2^20 the relative error is below 10^-8 whatever the input.", "quantifier": "all lengths 1 to 2^29, all inputs with 2-norm A >= 2^-960 (round trips 2^-900) and n^2 A below 2^1011 (round trips n^3 A below 2^1010), all 8 entry points, all instruction sets, thread thresholds and schedules", "why_tests_cant": "the bound is for the worst input of every length; random tests see errors far below it", "anchors": ["inc/otfft.h: createBluesteinFFT", "src/otfft_algo.cpp: Bluestein::fwd0, Bluestein::invn", "src/otfft_base.h: Bluestein"]}
{"id": "C70", "title": "Silence stays silence", "statement": "If every sample of the input is a zero (of either sign), every element of the result is a zero: no residue of rounding errors, no NaN and no infinity, for every class (complex, real, cosine, Bluestein, and the raw classes with caller-supplied work areas), every function of the class, every length it supports and every instruction set, in IEEE double arithmetic.", "quantifier": "all classes, functions, supported lengths, patterns of signs of the zeros, instruction sets, thread thresholds and schedules", "why_tests_cant": "a test sees one length at a time; one table entry that is NaN or infinite for some length, or one cell of an uninitialised work area that is read, breaks it", "anchors": ["inc/otfft.h: ComplexFFT, RealFFT, RealDCT", "src/otfft_algo.cpp: FFT0, RFFT, DCT0, Bluestein", "src/otfft_misc.h: mulpz, scalepz"]}
{"id": "C71", "title": "Auxiliary routines of the kernel headers", "statement": "The routines of the kernel headers that no transform calls do what their names say. init_W(N, W) writes nothing but W[0..N], with a result that does not depend on the thread schedule, and fills W[t] with exp(-2 pi i t/N), 0 <= t <= N, exactly for N = 1, 2 and the multiples of 4; for every other N >= 3 at least one entry is a wrong number. modq<N,s>(W, p) returns exp(-2 pi i s p/N) from a table of N/4 entries and reads nothing beyond it. getwp2 and cnj_getwp2 return the entries s p and s (p+1). swappz exchanges two cells, also a cell with itself. setup(int n) of the power-of-two algorithm classes silently prepares a transform of the largest power of two not above n.", "quantifier": "all lengths N, all s, p with s*p in the range of int, all table contents and addresses, thread schedules; all n from 2 to 2^25 - 1 and all seven power-of-two classes for setup", "why_tests_cant": "the routines have no tests because nothing calls them; the statement ranges over all lengths and schedules", "anchors": ["src/otfft_misc.h: init_W, modq, modqpz, mylog2, getwp2, cnj_getwp2, swappz", "src/otfft_algo_dif4.cpp: FFT0::setup", "src/otfft_algo_sixstep.cpp: FFT0::setup"]}
{"id": "C72", "title": "Real impulses and constants without rounding error", "statement": "With doubles that round to nearest (and any other rounding that leaves 0, 1, its results and their doubles alone), however the library is compiled: the unnormalised forward RealFFT of an impulse (c in element 0, zero elsewhere) is exactly c in every element, for every supported length. For the lengths 4 to 2^25 that are powers of two, the forward RealFFT of the constant c is exactly n c (unnormalised) or c (normalised) in element 0 and exactly zero elsewhere; the inverse RealFFT of a spectrum that is c in element 0 and zero elsewhere is exactly the constant c; and a constant survives the round trip forward, inverse exactly.", "quantifier": "all representable c (c/2 representable as well for the inverse), all supported real lengths (impulse), all powers of two 4..2^25 (constants), all compilations, all thread thresholds and schedules, no overflow", "why_tests_cant": "a statement about every length and every number, with exact equality", "anchors": ["inc/otfft.h: RealFFT", "src/otfft_algo.cpp: RFFT::fwd, RFFT::fwd0, RFFT::fwdn, RFFT::inv, RFFT::inv0, RFFT::setup", "src/otfft_misc.h: mulpz, addpz, subpz, cnjpz"]}
{"id": "C73", "title": "Cosine transform of constants without rounding error", "statement": "With doubles that round to nearest (and any other rounding that leaves 0, 1, its results and their doubles alone), however the library is compiled, for the lengths 4 to 2^25 that are powers of two: the RealDCT of the constant c is exactly n c (unnormalised) or c (normalised) in element 0 and exactly zero elsewhere; the inverse RealDCT of c in element 0 and zero elsewhere is exactly the constant c; a constant survives the round trip forward, inverse exactly.", "quantifier": "all representable c (c/2 representable as well for the inverse), all powers of two 4..2^25, all compilations, all thread thresholds and schedules, no overflow", "why_tests_cant": "a statement about every length and every number, with exact equality", "anchors": ["inc/otfft.h: RealDCT", "src/otfft_algo.cpp: DCT0::fwd, DCT0::fwd0, DCT0::fwdn, DCT0::inv, DCT0::inv0, DCT0::setup"]}
{"id": "C74", "title": "Normalisation of the real and cosine transforms is exact", "statement": "For every supported length and in any arithmetic the normalised forward RealFFT (fwd, fwdn, fwdu) is the unnormalised one with elements 0 and n/2 divided by the rounded n (or square root of n) and the elements between them multiplied once by the rounded 1/n (or 1/sqrt(n)). For the powers of two every element of a normalised RealFFT or RealDCT result (fwd, fwdn, invn) is exactly the element of the unnormalised result (fwd0, inv, inv0) divided by n, as long as nothing overflows or underflows.", "quantifier": "all supported lengths and all inputs (infinities and NaN included) for the first part; all powers of two 4..2^30 (RealFFT), 4..2^29 (RealDCT) and all inputs for the second; all compilations, thread thresholds and schedules", "why_tests_cant": "one input with a different last bit refutes it; the inverse applies the factor before and inside the half-length transform", "anchors": ["inc/otfft.h: RealFFT, RealDCT", "src/otfft_algo.cpp: RFFT::fwd, RFFT::fwd0, RFFT::fwdu, RFFT::inv, RFFT::invn, DCT0::fwd, DCT0::fwd0, DCT0::inv, DCT0::invn"]}
{"id": "C75", "title": "Which kernel is used does not matter in double precision", "statement": "With IEEE 754 binary64 arithmetic each of the eight algorithm classes (radix 4, 8, 16 decimation in frequency or in time, six/eight-step, mixed radix), whether or not setup would choose it for the length, satisfies the same error bounds as ComplexFFT: every output finite, element error at most W(n) 2^-52 factor n M for inputs of magnitude at most M, 2-norm of the error at most W2(n) 2^-52 times factor sqrt(n) A for inputs of 2-norm at most A. So the results of two classes, even of builds for different instruction sets and thread thresholds, differ by at most 2 W(n) 2^-52 factor n M.", "quantifier": "all eight classes, all powers of two 2..2^24 (mixed radix: every supported length), all inputs in range, both directions, all normalisations, instruction sets, thread thresholds and schedules", "why_tests_cant": "most pairs of kernel and length never run behind the public interface; an error bound over all inputs cannot be sampled", "anchors": ["src/otfft_algo_dif4.cpp: FFT0", "src/otfft_algo_dif8.cpp: FFT0", "src/otfft_algo_dif16.cpp: FFT0", "src/otfft_algo_dit4.cpp: FFT0", "src/otfft_algo_dit8.cpp: FFT0", "src/otfft_algo_dit16.cpp: FFT0", "src/otfft_algo_sixstep.cpp: FFT0", "src/otfft_algo_mixed.cpp: FFT0"]}
{"id": "C76", "title": "Every kernel has the exact properties of the public transforms", "statement": "Each of the eight algorithm classes, used directly: carries over every relation between doubles that the operations on data preserve (equality up to the sign of zeros, negation, scaling by powers of two, being replaced by NaN); never loses a NaN (if a component of the input is NaN, every element of the result has a NaN component); transforms an impulse into a constant exactly. The seven power-of-two classes also transform a constant c exactly into n c followed by zeros, and the inverse transform of the conjugate is exactly the conjugate of the forward transform.", "quantifier": "all eight classes, all lengths the class can be used with, all inputs, all normalisations (impulses and constants: unnormalised; mixed radix impulses: forward), instruction sets, thread thresholds and schedules", "why_tests_cant": "exact equalities over all inputs including special values, for kernels that do not run behind the public interface at most lengths", "anchors": ["src/otfft_algo_dif4.cpp: FFT0", "src/otfft_algo_dif8.cpp: FFT0", "src/otfft_algo_dif16.cpp: FFT0", "src/otfft_algo_dit4.cpp: FFT0", "src/otfft_algo_dit8.cpp: FFT0", "src/otfft_algo_dit16.cpp: FFT0", "src/otfft_algo_sixstep.cpp: FFT0", "src/otfft_algo_mixed.cpp: FFT0"]}
{"id": "C77", "title": "Fourier identities in double precision", "statement": "With IEEE 754 binary64 arithmetic the computed transforms satisfy the textbook identities up to rounding: with tol = W(n) 2^-52 M the relative error of one transform, inputs of magnitude at most M and the second input within delta of what the identity asks for, transforming a rotated, modulated, reversed or conjugated input, a linear combination of inputs, the same input with the opposite transform, or the output of a first transform gives what the identity predicts from the computed first output(s), within factor n (delta + 2 tol) (linear combination a, b: delta + (1 + |a| + |b|) tol; same transform twice: delta + (1 + factor n) tol); an impulse gives a tone and a tone of an integer frequency an impulse within factor n (delta + tol), so leakage into other bins is rounding error only. Same for RealFFT (tol = 3 (W(n/2) + 84) 2^-52 M) and Bluestein (tol = 16 n (150 ceil(log2 n) + 207) 2^-52 M); reversing the input of the cosine transform changes the sign of the odd bins up to rounding.", "quantifier": "all supported lengths, all finite inputs of magnitude at most M with the range of C46-C48, all shifts, frequencies and coefficients, the eight entry points, all instruction sets, thread thresholds, schedules and positions of the arrays", "why_tests_cant": "relates the results of two runs on arbitrary inputs at every length; tests can only sample inputs", "anchors": ["inc/otfft.h: ComplexFFT, RealFFT, RealDCT, createBluesteinFFT", "src/otfft_algo.cpp: FFT, RFFT, DCT", "src/otfft_base.h: Bluestein"]}
{"id": "C78", "title": "The classes agree with one another in double precision", "statement": "With IEEE 754 binary64 arithmetic, on finite inputs of magnitude at most M: two builds of ComplexFFT (any instruction sets, with and without FMA, any thread thresholds) differ in no element by more than 2 W(n) 2^-52 factor n M; ComplexFFT and Bluestein by no more than (W(n) + 16 n (150 ceil(log2 n) + 207)) 2^-52 factor n M; RealFFT and ComplexFFT on the same real signal by no more than (W(n) + 3 (W(n/2) + 84)) 2^-52 factor n M in every bin; RealFFT and ComplexFFT on the same Hermitian spectrum by no more than that in the samples, and the imaginary parts ComplexFFT leaves are bounded by the same.", "quantifier": "all supported lengths, all finite inputs in range, all entry points, pairs of instruction sets, thread thresholds, schedules and positions of the arrays", "why_tests_cant": "compares two implementations on all inputs and lengths; tests sample", "anchors": ["inc/otfft.h: ComplexFFT, RealFFT, createBluesteinFFT", "src/otfft_algo.cpp: FFT, RFFT", "src/otfft_base.h: Bluestein"]}
{"id": "C79", "title": "IEEE doubles behave like 53-bit numbers of unlimited exponent wherever no exception flag is raised", "statement": "Run any transform with IEEE 754 doubles. Every component of the result none of whose operations (table entries, scale factors and data) raised overflow, underflow, division by zero or invalid is a finite double whose value is exactly what the same program computes with 53-bit numbers of unlimited exponent; range effects can therefore never change a result silently. More generally, any relation between two arithmetics that their constants and operations respect carries over from input to result.", "quantifier": "all classes, entry points, supported lengths, instruction sets with and without FMA, thread thresholds, schedules and inputs, including infinities, NaN and subnormal numbers", "why_tests_cant": "quantifies over all inputs and lengths and about silent range errors, which show only for rare magnitudes", "anchors": ["inc/otfft.h: ComplexFFT, RealFFT, RealDCT, createBluesteinFFT", "src/otfft_algo.cpp: FFT, RFFT, DCT", "src/otfft_base.h: Bluestein", "src/otfft_misc.h: addpz, subpz, mulpz, mulpd"]}
{"id": "C80", "title": "Results without exception flags are accurate whatever the size of the input", "statement": "With IEEE 754 doubles, every element of a result for which no overflow, underflow, division-by-zero or invalid flag was raised is finite and satisfies the error bounds of C46 (ComplexFFT), C47 (RealFFT, RealDCT) and C48 (Bluestein), for inputs of every magnitude M, without the limits on M those theorems need (2^-970 <= M, n M <= 2^1019 and the like).", "quantifier": "all supported lengths, all inputs (subnormal and close to overflow included), all entry points, instruction sets, thread thresholds and schedules", "why_tests_cant": "a bound for all inputs of all sizes", "anchors": ["inc/otfft.h: ComplexFFT, RealFFT, RealDCT, createBluesteinFFT", "src/otfft_algo.cpp: FFT, RFFT, DCT", "src/otfft_base.h: Bluestein", "src/otfft_misc.h: addpz, subpz, mulpz, mulpd"]}
{"id": "C81", "title": "Scaling by powers of two and normalisation are exact in double precision wherever no exception flag is raised", "statement": "With IEEE 754 doubles: multiplying the input by a power of two multiplies every component of the result by exactly this power, for the components for which neither run raised overflow, underflow, division by zero or invalid; for lengths that are powers of two the normalised transforms (fwd, fwdn, invn) of ComplexFFT, RealFFT and RealDCT are exactly 1/n times fwd0 / inv in the components for which neither run raised a flag.", "quantifier": "all classes, supported lengths (powers of two for normalisation), inputs, powers of two, entry points, instruction sets, thread thresholds and schedules", "why_tests_cant": "bitwise equality for all inputs and lengths; C50 and C66 show it for unlimited exponents only", "anchors": ["inc/otfft.h: ComplexFFT, RealFFT, RealDCT, createBluesteinFFT", "src/otfft_algo.cpp: FFT, RFFT, DCT", "src/otfft_base.h: Bluestein", "src/otfft_misc.h: addpz, subpz, mulpz, mulpd"]}
{"id": "C82", "title": "Within range, IEEE doubles compute exactly what rounded real numbers compute", "statement": "If the input of a transform of length n consists of finite doubles of size at most 2^1019/n (ComplexFFT), 2^1016/n (RealFFT, RealDCT) or 2^1013/n^3 (Bluestein), the result consists of finite doubles, and their values are exactly those of the same program run on real numbers that are rounded to the nearest double-precision value (subnormals included) after every operation but have no largest value. No overflow, NaN, infinity or sign of zero inside the computation influences the values.", "quantifier": "all supported lengths, inputs in range (subnormal and zero included), entry points, instruction sets with and without FMA, thread thresholds, schedules and C libraries (cos, sin)", "why_tests_cant": "equality for all inputs in the range; an intermediate overflow or NaN would show only on rare inputs", "anchors": ["inc/otfft.h: ComplexFFT, RealFFT, RealDCT, createBluesteinFFT", "src/otfft_algo.cpp: FFT, RFFT, DCT", "src/otfft_base.h: Bluestein", "src/otfft_misc.h: addpz, subpz, mulpz, mulpd"]}
{"id": "C83", "title": "Impulses and constants are transformed exactly in IEEE double precision", "statement": "With IEEE 754 doubles in the range of C82: ComplexFFT fwd0 transforms the impulse c (c in element 0, zeros of either sign elsewhere) into n copies of c, bit-exact in value, for every supported length (inv and inv0 for powers of two up to 2^24), and a constant c into n*c in element 0 and zeros elsewhere for powers of two up to 2^24; RealFFT fwd0 does the same for real impulses of every supported length and fwd, fwd0, fwdn for real constants of power-of-two lengths up to 2^25; the inverses of RealFFT and RealDCT turn a single coefficient c in element 0 back into the constant c; the DCT-II of a constant is n*c (normalised: c) in element 0 and zero elsewhere.", "quantifier": "all supported lengths (powers of two where stated), all finite c in range, instruction sets with and without FMA, thread thresholds, schedules and C libraries", "why_tests_cant": "exact equality for all lengths, all values and all instruction sets", "anchors": ["inc/otfft.h: ComplexFFT, RealFFT, RealDCT, createBluesteinFFT", "src/otfft_algo.cpp: FFT, RFFT, DCT", "src/otfft_base.h: Bluestein", "src/otfft_misc.h: addpz, subpz, mulpz, mulpd"]}
{"id": "C84", "title": "The first element of a complex transform is the sum of the input, computed by additions only", "statement": "Element 0 of ComplexFFT fwd0, and of inv and inv0 for lengths without prime factors above 5, is computed from the n input elements by additions only: no product and no table entry influences it, every element is used exactly once, and goes through at most sum of (p-1) over the prime factors p of n additions (log2 n for powers of two). Hence it is the exact sum of fixed-point data (integers times 2^q, -1074 <= q <= 900, absolute sum of the integers at most 2^53), and for any other finite data in range its error is at most ((1+2^-53)^d - 1) times the sum of the absolute values, d being that number of additions, separately for the real and the imaginary parts.", "quantifier": "all supported lengths, all finite inputs in range, instruction sets with and without FMA, thread thresholds, schedules and C libraries", "why_tests_cant": "exactness and the bound are claimed for all data, lengths and kernels; a stray rounding would show only on rare inputs", "anchors": ["inc/otfft.h: ComplexFFT, RealFFT, RealDCT", "src/otfft_algo.cpp: FFT, RFFT, DCT", "src/otfft_mixedradix.h: fwdcore, invcore, fwdany", "src/otfft_misc.h: addpz, mulpz"]}
{"id": "C85", "title": "Sums and alternating sums of real data are exact in the real and cosine transforms", "statement": "For real fixed-point data (integers times 2^q, -1074 <= q <= 900, absolute sum of the integers at most 2^53, for example 16 bit samples of any supported length up to 2^31): element 0 of RealFFT fwd0 is exactly the sum, with imaginary part zero; element n/2 is exactly the alternating sum, with imaginary part zero; element 0 of RealDCT fwd0 is exactly the sum.", "quantifier": "all supported lengths, all such data, instruction sets with and without FMA, thread thresholds, schedules and C libraries", "why_tests_cant": "exact equality for all data and all lengths", "anchors": ["inc/otfft.h: RealFFT, RealDCT", "src/otfft_algo.cpp: RFFT, DCT", "src/otfft_misc.h: addpz, mulpz"]}
{"id": "C86", "title": "Errors of repeated round trips grow at most linearly", "statement": "If an object transforms an array forward and back r times, with any mixture of matching entry points (fwd/inv, fwdn/inv0, fwd0/invn, fwdu/invu, ...), the result differs from the original data by at most 3 r W 2^-52 of their 2-norm (W = errWeight2 n, 55 log2 n for powers of two; errWeight2(n/2)+336 for RealFFT from x to y and back to x; 3/2 (errWeight2(n/2)+711) for RealDCT; 3/2 (165 ceil(log2 n)+222) 6 sqrt n for Bluestein), as long as that is at most one half. No round trip amplifies the errors of the earlier ones.", "quantifier": "all supported lengths, all numbers of round trips, all sequences of matching entry points, all data in range, instruction sets, thread thresholds and schedules", "why_tests_cant": "a statement about histories of any length and all data; a test sees a few of them", "anchors": ["inc/otfft.h: ComplexFFT, RealFFT, RealDCT, createBluesteinFFT", "src/otfft_algo.cpp: FFT, RFFT, DCT", "src/otfft_base.h: Bluestein"]}
{"id": "C87", "title": "Integer data survive round trips", "statement": "If the samples are integers (Gaussian integers for the complex classes) of absolute value at most K, rounding the result of r round trips to the nearest integers gives back exactly the original data, provided 6 r W sqrt(n) K < 2^52 (W as in C86; 9 r (...) for RealDCT and Bluestein). For example 100 round trips of 16 bit samples in blocks of 2^20.", "quantifier": "all supported lengths, all integer data within the bound, all sequences of matching entry points, instruction sets, thread thresholds and schedules", "why_tests_cant": "exact recovery for all data and all histories", "anchors": ["inc/otfft.h: ComplexFFT, RealFFT, RealDCT, createBluesteinFFT", "src/otfft_algo.cpp: FFT, RFFT, DCT", "src/otfft_base.h: Bluestein"]}
{"id": "C88", "title": "The mean value is exact or correctly rounded", "statement": "Let the samples be integers times 2^q (q >= -1074, q <= 900 with IEEE doubles) with the absolute values of the integers adding up to at most 2^53 (real and imaginary parts separately). Element 0 of the normalised transform is the exact mean value for ComplexFFT (fwd, fwdn, invn) if the length is 2^l and l <= q + 1074; the double nearest to the mean value for RealFFT and RealDCT of every supported length (they divide), and element n/2 of RealFFT the double nearest to the alternating mean; for ComplexFFT of other lengths (invn: without prime factors above 5) the exact sum multiplied by the rounded 1/n, which need not be the nearest double: the mean value of 98 ones comes out as 1 - 2^-53 from ComplexFFT and as 1 from RealFFT.", "quantifier": "all supported lengths, all data within the bound, all instruction sets, thread thresholds and schedules", "why_tests_cant": "exactness for all data and all lengths", "anchors": ["inc/otfft.h: ComplexFFT, RealFFT, RealDCT", "src/otfft_algo.cpp: FFT, RFFT, DCT", "src/otfft_misc.h: scalepz"]}
{"id": "C89", "title": "Relative accuracy of whole results, for any magnitude, where no exception flag is raised", "statement": "In IEEE double precision, whatever the magnitude of the input: if no overflow, underflow, division-by-zero or invalid-operation exception was raised by the operations that led to the result of one call, then all of the result is finite and its relative error in the root-mean-square sense is at most errWeight2(n) 2^-52 for ComplexFFT (55 log2 n for powers of two), (errWeight2(n/2) + 336) 2^-52 for RealFFT in both directions and (165 ceil(log2 n) + 222) 6 sqrt(n) 2^-52 for the Bluestein object; for RealDCT the error is at most (errWeight2(n/2) + 369) 2^-52 (inverse: 1053) times the largest amplification factor sqrt(n) (inverse: sqrt(2n), both times the normalisation) times the 2-norm of the data.", "quantifier": "all supported lengths, all IEEE data of any magnitude, all entry points and normalisations, all instruction sets, thread thresholds, schedules and libm implementations within the assumed accuracy", "why_tests_cant": "quantifies over all data of all magnitudes and all lengths", "anchors": ["inc/otfft.h: ComplexFFT, RealFFT, RealDCT, createBluesteinFFT", "src/otfft_algo.cpp: FFT, RFFT, DCT", "src/otfft_base.h: Bluestein"]}
{"id": "C90", "title": "Element n/2 of a transform of power of two length is an alternating sum, exact for fixed-point data", "statement": "For a length n = 2^l and an entry point of ComplexFFT that does not normalise, element n/2 of the result is one subtraction applied to two numbers: the sum of the elements with even index and the sum of those with odd index, each computed by additions only, every element being used once and going through at most l - 1 additions; no multiplication takes part. So if the data are integers times 2^q and the sum of the absolute values of the integers is at most 2^53, element n/2 is the exact alternating sum; for any doubles the error is at most (1 + 2^-53)^l - 1 times the sum of the absolute values.", "quantifier": "all l from 1 to 30, all fixed-point (or double precision) inputs, the entry points fwd0, inv and inv0, all instruction sets, thread thresholds, schedules and libm implementations within the assumed accuracy", "why_tests_cant": "quantifies over all data and all lengths up to 2^30", "anchors": ["inc/otfft.h: ComplexFFT", "src/otfft_algo.cpp: FFT", "src/otfft_misc.h: addpz, subpz"]}
{"id": "C91", "title": "Transforms of length 2 and 4 are additions and subtractions only, exact for fixed-point data", "statement": "Whatever the arithmetic (with NaN, infinities, signed zeros), ComplexFFT of length 2 without normalisation returns exactly x0 + x1 and x0 - x1, one operation for every number; that of length 4 returns (x0 + x2) + (x1 + x3), (x0 - x2) - i (x1 - x3), (x0 + x2) - (x1 + x3), (x0 - x2) + i (x1 - x3) (inverse: signs of i swapped), multiplication by i being an exchange of parts and a change of sign. So for data that are integers times 2^q, the sum of the absolute values of the integers being at most 2^53, every element of the result is the exact discrete Fourier transform. The same holds for fwd0 of RealFFT of length 4.", "quantifier": "all inputs, all arithmetics, the entry points fwd0, inv and inv0, all instruction sets, thread thresholds, schedules and libm implementations within the assumed accuracy", "why_tests_cant": "quantifies over all data and all arithmetics", "anchors": ["inc/otfft.h: ComplexFFT", "src/otfft_algo.cpp: FFT", "src/otfft_misc.h: addpz, subpz, jxpz", "inc/otfft.h: RealFFT"]}
{"id": "C92", "title": "Transforms of length n and m*n agree: zero padding, repetition, stretching, decimation, folding, polyphase splitting", "statement": "For any n and m for which both lengths are supported: the transform of a signal with zeros appended up to m*n elements has the old bins as every m-th bin; of the signal repeated m times, m times the old bins with m-1 zeros in between; of the signal with m-1 zeros after every element, the old bins repeated; the transform of every m-th element of a signal is the average of the aliasing bins; the transform of the m stretches added up is every m-th bin; and the transforms of the m interleaved parts, turned and added, give the whole transform. Exactly in exact arithmetic, and in double precision up to the roundings of one short and one long transform (stated bound). It does not matter that the library uses different algorithms (Stockham, six-step, mixed radix, Bluestein) for the two lengths.", "quantifier": "all n and m, all input vectors in range, all entry points (forward, inverse, every normalisation), ComplexFFT, RealFFT, Bluestein and Bluestein of length n against ComplexFFT of length m*n, all instruction sets and thread thresholds", "why_tests_cant": "quantifies over all pairs of lengths and all inputs", "anchors": ["inc/otfft.h: ComplexFFT, RealFFT, createBluesteinFFT", "src/otfft_algo.cpp: FFT, RFFT", "src/otfft_base.h: Bluestein"]}
{"id": "C93", "title": "A delay by half the length changes nothing but the signs of the odd elements, bit for bit", "statement": "For even n, the transform of a signal delayed by n/2 samples (cyclically) has bit for bit the even elements of the transform of the signal and exactly minus the odd ones; only signs of zeros may differ. It holds in IEEE arithmetic whatever rounding does, with overflow, infinities and NaN. Consequences: a signal with period n/2 has exact zeros in all odd elements, and one whose second half is minus its first (half-wave symmetry) exact zeros in all even elements - no rounding residue.", "quantifier": "all inputs including infinities and NaN, all even lengths of ComplexFFT (and FFT0) and all lengths divisible by 4 of the forward RealFFT, all entry points (forward/inverse, every normalisation), all instruction sets and thread thresholds, every symmetric rounding", "why_tests_cant": "quantifies over all inputs and lengths; bit-for-bit equality depends on every butterfly and on the order of all additions", "anchors": ["inc/otfft.h: ComplexFFT, RealFFT", "src/otfft_algo.cpp: FFT, RFFT", "src/otfft_misc.h: addpz, subpz"]}
{"id": "C94", "title": "Negating every other element moves the transform by half its length, bit for bit (powers of two)", "statement": "For n a power of two, if every other element of the signal is negated, the transform is that of the signal moved cyclically by n/2 elements, bit for bit; only signs of zeros may differ. It holds in IEEE arithmetic whatever rounding does, with overflow, infinities and NaN. Consequences: a signal that is zero in all odd elements has a transform that repeats exactly with period n/2, and one that is zero in all even elements a transform whose second half is exactly minus the first. The same holds for the inverse transforms of RealFFT: negating every other element of the half spectrum moves the signal by half its length, and a half spectrum with zeros in all odd (even) elements gives a signal whose second half exactly repeats (negates) the first.", "quantifier": "all inputs including infinities and NaN, all lengths 2^k (Stockham, six-step, eight-step and mixed radix kernels) of ComplexFFT, FFT0 and, from 4 on, the inverse RealFFT, all entry points (forward/inverse, every normalisation), all instruction sets and thread thresholds, every symmetric rounding", "why_tests_cant": "quantifies over all inputs and lengths; bit-for-bit equality depends on every butterfly and on the table index of every twiddle factor", "anchors": ["inc/otfft.h: ComplexFFT, RealFFT", "src/otfft_algo.cpp: FFT", "src/otfft_misc.h: addpz, subpz", "src/otfft_algo.cpp: RFFT"]}
{"id": "C95", "title": "A delay by a quarter of the length turns element t by exactly (-i)^t, bit for bit", "statement": "Element t of the transform of a signal delayed cyclically by n/4 samples is, bit for bit, element t of the transform of the signal times (-i)^t (i^t for the inverse transforms): the same digits with real and imaginary part exchanged and signs changed as needed; only signs of zeros may differ. It holds in IEEE arithmetic whatever rounding does, with overflow, infinities and NaN. Consequence: the spectrum of a signal of period n/4 is exactly zero in all elements but every fourth, with no residue of rounding errors.", "quantifier": "all inputs including infinities and NaN; ComplexFFT and FFT0 of every length that 4 divides, forward RealFFT of every length that 8 divides; with fused multiply-add only powers of two; all entry points (forward/inverse, every normalisation), all instruction sets and thread thresholds, every symmetric rounding", "why_tests_cant": "quantifies over all inputs and lengths; bit-for-bit equality depends on every butterfly, on the choice of the first radix for every length and on multiplication by i commuting with every later operation", "anchors": ["inc/otfft.h: ComplexFFT, RealFFT", "src/otfft_algo.cpp: FFT, RFFT", "src/otfft_avxdif4.h: fwdend, invend", "src/otfft_misc.h: addpz, subpz, jxpz"]}
{"id": "C96", "title": "Reversing a signal changes the sign of the odd cosine coefficients and nothing else, bit for bit", "statement": "The cosine transform of a signal read backwards has, bit for bit, the same even coefficients and exactly minus the odd ones; conversely, changing the sign of the odd coefficients reverses the result of the inverse cosine transform. Only signs of zeros may differ; it holds in IEEE arithmetic whatever rounding does, with overflow, infinities and NaN. Consequences: a signal that reads the same backwards has odd coefficients that are exactly zero, with no residue of rounding errors; one that reads the same but for the sign has even coefficients that are exactly zero; and coefficients that are zero at all odd (even) places give a signal that is exactly (anti)symmetric.", "quantifier": "all inputs including infinities and NaN; RealDCT and DCT0; forward: every length that 4 divides, inverse: powers of two from 4 on; all entry points, all instruction sets and thread thresholds, every symmetric rounding", "why_tests_cant": "quantifies over all inputs and lengths; bit-for-bit equality depends on the reordering loops, on the real transform, on the half-length complex transform with every radix, and on the rotation being the same for both signals", "anchors": ["inc/otfft.h: RealDCT", "src/otfft_algo.cpp: DCT0::fwd, DCT0::inv, RFFT, FFT", "src/otfft_misc.h: addpz, subpz, haddpz, mulpd"]}
{"id": "C97", "title": "The cosine transform is the Fourier transform of the signal followed by its mirror image", "statement": "Bin k < n of a forward RealFFT or ComplexFFT of length 2n of a signal followed by its mirror image is twice the cosine coefficient k that RealDCT of length n gives, turned by exp(i pi k / 2n) (half a sample); bin n is 0. Conversely, the coefficients turned by half a sample, a zero, and the mirror image of the coefficients turned the other way have as inverse Fourier transform the inverse cosine transform followed by its mirror image. Exact in exact arithmetic; in double precision, on inputs of magnitude at most M, within 2n ((W(n)+84) 3 + (W(n/2)+117) 9/2) 2^-52 M times the normalisations (for ComplexFFT W(2n) instead of 3 (W(n)+84)), for every pair of instruction sets; an error of the turned coefficients passed to the inverse is allowed for.", "quantifier": "all real inputs in range, all lengths n supported by RealDCT with 2n supported by the other class, all pairs of entry points of one direction, instruction sets, thread thresholds, schedules and positions of the arrays", "why_tests_cant": "compares two classes on all inputs and lengths; the bound has to hold for every input", "anchors": ["inc/otfft.h: RealDCT, RealFFT, ComplexFFT", "src/otfft_algo.cpp: DCT0::fwd, DCT0::inv, RFFT, FFT"]}
{"id": "C98", "title": "Two real signals transformed by one complex transform", "statement": "If z = a + i b with real signals a, b of even length n, the spectra A, B that RealFFT gives are found from the transform Z of ComplexFFT or Bluestein: 2 A_k = Z_k + conj Z_{n-k}, 2 i B_k = Z_k - conj Z_{n-k} and Z_k = A_k + i B_k (indices modulo n); conversely the inverse complex transform of A + i B has the inverse real transforms of A and B as real and imaginary parts. Exact in exact arithmetic; in double precision within 2 (one complex error + one real error), also for different instruction sets of the two objects, and for spectra whose sum A + i B is off by delta.", "quantifier": "all real inputs (inverse: all Hermitian spectra) in range, all lengths supported by both classes, all entry points, instruction sets, thread thresholds, schedules and positions of the arrays", "why_tests_cant": "compares two classes on all inputs and lengths; the bound has to hold for every input", "anchors": ["inc/otfft.h: RealFFT, ComplexFFT, createBluesteinFFT", "src/otfft_algo.cpp: RFFT, FFT", "src/otfft_base.h: Bluestein"]}
{"id": "C99", "title": "All rows of a matrix by one object, and two-dimensional transforms by rows and columns", "statement": "One object called once for each of the m rows of n elements of an array leaves there, bit for bit, what a call on each row alone would give, whatever the entry points, and touches nothing else (ComplexFFT, Bluestein, RealDCT; any arithmetic). Transforming the rows of a matrix with an object of length n and the columns of the result with one of length m, or the columns first, gives the two-dimensional discrete Fourier transform with the product of the two normalisations: exactly in exact arithmetic, and in double precision within factor_m m (factor_n n W(n) M + W(m) M') 2^-52 (rows first), for elements of magnitude at most M before and M' after the first pass.", "quantifier": "all matrices, numbers of rows and columns, supported lengths, entry points (also different ones per row), instruction sets, thread thresholds, schedules and positions of the array", "why_tests_cant": "quantifies over all inputs, sizes and schedules; that a call on one row does not disturb its neighbours is a statement about every location", "anchors": ["inc/otfft.h: ComplexFFT, RealDCT, createBluesteinFFT", "src/otfft_algo.cpp: FFT, DCT0", "src/otfft_base.h: Bluestein"]}
{"id": "C100", "title": "Correlation by three transforms", "statement": "Transforming two signals forward, multiplying the first spectrum by the conjugate of the second and transforming back gives the circular cross-correlation sum_j a_{(j+t) mod n} conj(b_j) at every lag t, times n and the three normalisations; with both signals equal, the power spectrum transformed back is the autocorrelation. Exact in exact arithmetic; in double precision, for signals of magnitude at most Ma, Mb, within factor n (W M' 2^-52 + delta + n^2 factors (tol (Mb + tol) + Ma tol)), where delta is the error of the product the caller computes; for ComplexFFT and Bluestein.", "quantifier": "all signals in range, all supported lengths, all combinations of forward and inverse entry points, pairs of instruction sets, thread thresholds, schedules and positions of the arrays, every error of the product", "why_tests_cant": "quantifies over all inputs and lengths; the bound has to hold for every input and every rounding of the product", "anchors": ["inc/otfft.h: ComplexFFT, createBluesteinFFT", "src/otfft_algo.cpp: FFT", "src/otfft_base.h: Bluestein"]}
{"id": "C101", "title": "Inner products and energies survive the transform", "statement": "For two vectors transformed in the same direction, possibly with different normalisations, the inner product of the results is n times both normalisations times the inner product of the inputs: orthogonal signals have orthogonal spectra, and the energy of the spectrum is that of the signal. Exact in exact arithmetic; in double precision, for vectors of magnitude at most Ma, Mb, within n^3 times the normalisations times (tol (Mb + tol) + Ma tol) with the error tol of one transform; for ComplexFFT, Bluestein and RealFFT (forward: real signals, inverse: Hermitian spectra).", "quantifier": "all pairs of inputs in range, all supported lengths, all pairs of entry points of one direction, instruction sets, thread thresholds, schedules and positions of the arrays", "why_tests_cant": "quantifies over all pairs of inputs and all lengths", "anchors": ["inc/otfft.h: ComplexFFT, RealFFT, createBluesteinFFT", "src/otfft_algo.cpp: FFT, RFFT", "src/otfft_base.h: Bluestein"]}
