/-
C34: the SIMD primitives. C43: the results do not depend on the instruction set.
-/
import Verif.Proof.Simd
import Verif.Props.Complex
import Verif.Props.Pool
import Verif.Proof.Binary64

namespace OTFFT.Props
open OTFFT

variable {F : Type} [FArith F]

/-- C34: in exact arithmetic the `xmm` primitives of every instruction set are the complex operations. -/
theorem C34_exact (i : Target) : (i.xmm ℝ).Exact := by
  rw [Target.xmm_exact]
  exact NoSse.exact

/-- an instruction set extension comes with its predecessors -/
structure _root_.OTFFT.Target.Valid (i : Target) : Prop where
  sse3 : i.sse3 = true → i.sse2 = true
  avx : i.avx = true → i.sse3 = true
  avx512 : i.avx512 = true → i.avx = true ∧ i.fma = true

/-- The register types of a compilation for `i`: `xmm`, `ymm` (`__m256d`, or two `xmm`), `emm` (two `ymm`), `zmm`
(`__m512d`, or two `ymm`), `amm` (two `zmm`), `bmm` (two `amm`). -/
inductive _root_.OTFFT.Target.Register (F : Type) [FArith F] (i : Target) : (L : ℕ) → (R : Type) → VecOps F L R → Prop
  | xmm : i.Register F 1 _ (i.xmm F).vec
  | ymm (h : i.avx = true) : i.Register F 2 _ (Avx.ops i.fma)
  | ymmEmulated (h : i.avx = false) : i.Register F 2 _ (i.xmm F).vec.pair
  | emm {R : Type} {V : VecOps F 2 R} (h : i.Register F 2 R V) : i.Register F 4 _ V.pair
  | zmm (h : i.avx512 = true) : i.Register F 4 _ Avx512.ops
  | zmmEmulated (h : i.avx512 = false) {R : Type} {V : VecOps F 2 R} (h : i.Register F 2 R V) : i.Register F 4 _ V.pair
  | amm {R : Type} {V : VecOps F 4 R} (h : i.Register F 4 R V) : i.Register F 8 _ V.pair
  | bmm {R : Type} {V : VecOps F 8 R} (h : i.Register F 8 R V) : i.Register F 16 _ V.pair

/-- C34: on every instruction set, for all operands and whatever the rounding, the operations of every register type
do in each lane what the `xmm` operations do. (`v8xpz4` of AVX-512 adds a negated number where `v8xpz` subtracts: there
the sign laws of IEEE 754 are needed.) -/
theorem C34_lanes {i : Target} (hi : i.Valid) (hs : i.avx512 = false ∨ SignLaws F) {L : ℕ} {R : Type} {V : VecOps F L R}
    (h : i.Register F L R V) : V.LaneWise (i.xmm F) := by
  induction h with
  | xmm => exact XmmOps.vec_laneWise _
  | ymm h =>
    have e : i.xmm F = Sse3.ops i.fma := by
      unfold Target.xmm
      rw [if_pos (hi.sse3 (hi.avx h)), if_pos (hi.avx h)]
    rw [e]
    exact Avx.laneWise _
  | ymmEmulated h => exact (XmmOps.vec_laneWise _).pair
  | emm _ ih => exact ih.pair
  | zmm h =>
    have e : i.xmm F = Sse3.ops true := by
      unfold Target.xmm
      rw [if_pos (hi.sse3 (hi.avx (hi.avx512 h).1)), if_pos (hi.avx (hi.avx512 h).1), (hi.avx512 h).2]
    rw [e]
    rcases hs with hs | hs
    · rw [h] at hs; cases hs
    · exact Avx512.laneWise
  | zmmEmulated _ _ ih => exact ih.pair
  | amm _ ih => exact ih.pair
  | bmm _ ih => exact ih.pair

/-- C34: so in exact arithmetic every lane of every register of every instruction set computes with complex numbers. -/
theorem C34_lanes_exact {i : Target} (hi : i.Valid) {L : ℕ} {R : Type} {V : VecOps ℝ L R} (h : i.Register ℝ L R V)
    (a b : R) (l : Fin L) :
    (V.lanes (V.add a b) l).toC = (V.lanes a l).toC + (V.lanes b l).toC ∧
    (V.lanes (V.sub a b) l).toC = (V.lanes a l).toC - (V.lanes b l).toC ∧
    (V.lanes (V.mul a b) l).toC = (V.lanes a l).toC * (V.lanes b l).toC ∧
    (V.lanes (V.cnj a) l).toC = (starRingEnd ℂ) (V.lanes a l).toC ∧
    (V.lanes (V.jx a) l).toC = Complex.I * (V.lanes a l).toC ∧
    (V.lanes (V.v8x a) l).toC = Complex.exp (Complex.I * (Real.pi / 4)) * (V.lanes a l).toC ∧
    (V.lanes (V.w8x a) l).toC = Complex.exp (-Complex.I * (Real.pi / 4)) * (V.lanes a l).toC ∧
    (V.lanes (V.h1x a) l).toC = Complex.exp (-Complex.I * (Real.pi / 8)) * (V.lanes a l).toC ∧
    (V.lanes (V.h3x a) l).toC = Complex.exp (-Complex.I * (3 * Real.pi / 8)) * (V.lanes a l).toC ∧
    (V.lanes (V.hfx a) l).toC = Complex.exp (Complex.I * (Real.pi / 8)) * (V.lanes a l).toC ∧
    (V.lanes (V.hdx a) l).toC = Complex.exp (Complex.I * (3 * Real.pi / 8)) * (V.lanes a l).toC ∧
    ∀ r : ℝ, (V.lanes (V.muld (V.splat r) a) l).toC = r * (V.lanes a l).toC := by
  have w := C34_lanes hi (Or.inr inferInstance) h
  have e := C34_exact i
  refine ⟨?_, ?_, ?_, ?_, ?_, ?_, ?_, ?_, ?_, ?_, ?_, fun r => ?_⟩
  · rw [w.add, e.add]
  · rw [w.sub, e.sub]
  · rw [w.mul, e.mul]
  · rw [w.cnj, e.conj]
  · rw [w.jx, e.jx]
  · rw [w.v8x, e.v8x]
  · rw [w.w8x, e.w8x]
  · rw [w.h1x, e.h1x]
  · rw [w.h3x, e.h3x]
  · rw [w.hfx, e.hfx]
  · rw [w.hdx, e.hdx]
  · rw [w.muld, w.splat, e.scale]

/-- C34: moving complex numbers between `ymm` registers, with and without AVX (whatever the undefined half of a cast
is). -/
theorem C34_moves {F : Type} [FArith F] (fma : Bool) (u a b : Xmm F) (p q : Reg 4 F) :
    let v := (Avx.ops (F := F) fma).lanes
    v (Avx.cmplx2 a b) = ![a, b] ∧ v (Avx.cat u a b) = ![a, b] ∧
    v (Avx.catlo p q) = catlo (v p) (v q) ∧ v (Avx.cathi p q) = cathi (v p) (v q) ∧
    v (Avx.swaplohi p) = ![v p 1, v p 0] ∧ Avx.getlo p = v p 0 ∧ Avx.gethi p = v p 1 := by
  refine ⟨?_, ?_, ?_, ?_, ?_, ?_, ?_⟩
  · funext l i; fin_cases l <;> fin_cases i <;> rfl
  · funext l i; fin_cases l <;> fin_cases i <;> rfl
  · funext l i; fin_cases l <;> fin_cases i <;> rfl
  · funext l i; fin_cases l <;> fin_cases i <;> rfl
  · funext l i; fin_cases l <;> fin_cases i <;> rfl
  · rfl
  · rfl

theorem C34_moves_emulated (X : XmmOps F) (a b : Xmm F) (p q : Xmm F × Xmm F) :
    let v := (ymmEmu X).lanes
    v (YmmEmu.cat a b) = ![a, b] ∧ v (YmmEmu.catlo p q) = catlo (v p) (v q) ∧
    v (YmmEmu.cathi p q) = cathi (v p) (v q) ∧ v (YmmEmu.swaplohi p) = ![v p 1, v p 0] ∧ p.1 = v p 0 ∧ p.2 = v p 1 := by
  refine ⟨?_, ?_, ?_, ?_, ?_, ?_⟩
  · funext l i; fin_cases l <;> fin_cases i <;> rfl
  · funext l i; fin_cases l <;> fin_cases i <;> rfl
  · funext l i; fin_cases l <;> fin_cases i <;> rfl
  · funext l i; fin_cases l <;> fin_cases i <;> rfl
  · rfl
  · rfl

/-- C34: division and negation on `ymm` registers, with and without AVX, are those of `xmm` in each lane, whatever the
rounding. -/
theorem C34_division (fma : Bool) (X : XmmOps F) (p q : Reg 4 F) (a b : Xmm F × Xmm F) (l : Fin 2) :
    let v := (Avx.ops (F := F) fma).lanes
    let w := (ymmEmu X).lanes
    v (Avx.divpz2 fma p q) l = (Sse3.ops fma).divpz (v p l) (v q l) ∧ v (Avx.negpz2 p) l = (Sse3.ops fma).negpz (v p l) ∧
    w (YmmEmu.divpz2 X a b) l = X.divpz (w a l) (w b l) := by
  refine ⟨?_, ?_, ?_⟩
  · cases fma <;> fin_cases l <;> (funext i; fin_cases i <;> rfl)
  · cases fma <;> fin_cases l <;> (funext i; fin_cases i <;> rfl)
  · fin_cases l <;> rfl

/-- C34: so on a `ymm` register each lane of the quotient is the quotient of the complex numbers. -/
theorem C34_division_exact (fma : Bool) (p q : Reg 4 ℝ) (l : Fin 2) (h : ((Avx.ops fma).lanes q l).toC ≠ 0) :
    ((Avx.ops fma).lanes (Avx.divpz2 fma p q) l).toC = ((Avx.ops fma).lanes p l).toC / ((Avx.ops fma).lanes q l).toC := by
  rw [(C34_division fma (Sse3.ops fma) p q (p', p') (p', p') l).1]
  exact (C34_exact ⟨true, true, fma, false, false⟩).div _ _ h
where p' : Xmm ℝ := ![0, 0]

theorem mylog2_pow : ∀ k, mylog2 (2 ^ k) = k
  | 0 => by unfold mylog2; simp
  | k + 1 => by
    unfold mylog2
    have : 2 ≤ 2 ^ (k + 1) := by rw [pow_succ]; have := Nat.one_le_two_pow (n := k); omega
    rw [if_neg (by omega), show 2 ^ (k + 1) / 2 = 2 ^ k by rw [pow_succ]; omega, mylog2_pow k]
    omega

/-- `exp(-2πi·m/N)` for `N = 4·2^k`, `m = 2^k·q + r` -/
theorem quarter_turns {k q r : ℕ} :
    Complex.exp (-2 * Real.pi * Complex.I / (4 * 2 ^ k : ℕ) * (2 ^ k * q + r : ℕ)) =
      (-Complex.I) ^ q * Complex.exp (-2 * Real.pi * Complex.I / (4 * 2 ^ k : ℕ) * r) := by
  have hI : -Complex.I = Complex.exp (-(Real.pi / 2) * Complex.I) := by
    rw [neg_mul, Complex.exp_neg, Complex.exp_pi_div_two_mul_I, Complex.inv_I]
  rw [hI, ← Complex.exp_nat_mul, ← Complex.exp_add]
  congr 1
  push_cast
  field_simp
  ring

/-- C34: `modq` and, on every instruction set, `modqpz` compute the weight `exp(-2πi·s·p/N)` from a table of the weights of
the first quarter of the circle, for every power of two `N ≥ 4` and all `s`, `p`. -/
theorem C34_modq (i : Target) (k s : ℕ) (W : ℕ → Xmm ℝ)
    (hW : ∀ r < 2 ^ k, (W r).toC = Complex.exp (-2 * Real.pi * Complex.I / (4 * 2 ^ k : ℕ) * r)) (p : ℕ) :
    (modq (4 * 2 ^ k) s W p).toC = Complex.exp (-2 * Real.pi * Complex.I / (4 * 2 ^ k : ℕ) * (s * p : ℕ)) ∧
    (modqpz (i.xmm ℝ) (4 * 2 ^ k) s W p).toC = Complex.exp (-2 * Real.pi * Complex.I / (4 * 2 ^ k : ℕ) * (s * p : ℕ)) := by
  have h4 : 4 * 2 ^ k / 4 = 2 ^ k := by omega
  have hr : s * p % 2 ^ k < 2 ^ k := Nat.mod_lt _ (by positivity)
  have hsp : s * p = 2 ^ k * (s * p / 2 ^ k) + s * p % 2 ^ k := (Nat.div_add_mod _ _).symm
  have hq : s * p / 2 ^ k / 4 * 4 + s * p / 2 ^ k % 4 = s * p / 2 ^ k := Nat.div_add_mod' _ _
  have key : Complex.exp (-2 * Real.pi * Complex.I / (4 * 2 ^ k : ℕ) * (s * p : ℕ)) =
      (-Complex.I) ^ (s * p / 2 ^ k % 4) * (W (s * p % 2 ^ k)).toC := by
    rw [hsp, quarter_turns, ← hsp, ← hq, pow_add, pow_mul, hq, hW _ hr]
    have : (-Complex.I) ^ 4 = 1 := by
      rw [neg_pow, Complex.I_pow_four]; norm_num
    rw [← pow_mul, mul_comm _ 4, pow_mul, this, one_pow, one_mul]
  have e := C34_exact i
  have e' := NoSse.exact
  rw [key]
  unfold modq modqpz
  simp only [h4, mylog2_pow, Nat.shiftRight_eq_div_pow, Nat.and_two_pow_sub_one_eq_mod,
    show ∀ n : ℕ, n &&& 3 = n % 4 from fun n => Nat.and_two_pow_sub_one_eq_mod n 2]
  have hlt : s * p / 2 ^ k % 4 < 4 := Nat.mod_lt _ (by norm_num)
  generalize s * p / 2 ^ k % 4 = j at hlt ⊢
  generalize W (s * p % 2 ^ k) = z
  interval_cases j
  · simp
  · refine ⟨?_, ?_⟩
    · rw [pow_one]; exact e'.mjx z
    · rw [pow_one]; exact e.mjx z
  · have h2 : (-Complex.I) ^ 2 = -1 := by rw [neg_sq, Complex.I_sq]
    rw [h2, neg_one_mul]
    exact ⟨e'.neg z, e.neg z⟩
  · have h3 : (-Complex.I) ^ 3 = Complex.I := by
      rw [pow_succ, neg_sq, Complex.I_sq]; ring
    rw [h3]
    exact ⟨e'.jx z, e.jx z⟩

/-- C34: the scalar class `complex_t` in exact arithmetic -/
theorem C34_complex_t (a b : Xmm ℝ) (r t : ℝ) :
    (Cpx.add a b).toC = a.toC + b.toC ∧ (Cpx.sub a b).toC = a.toC - b.toC ∧ (Cpx.mul a b).toC = a.toC * b.toC ∧
    (b.toC ≠ 0 → (Cpx.div a b).toC = a.toC / b.toC) ∧ (Cpx.smul r a).toC = r * a.toC ∧
    (r ≠ 0 → (Cpx.sdiv a r).toC = a.toC / r) ∧ (Cpx.conj a).toC = (starRingEnd ℂ) a.toC ∧ (Cpx.neg a).toC = -a.toC ∧
    (Cpx.jx a).toC = Complex.I * a.toC ∧ (Cpx.mjx a).toC = -Complex.I * a.toC ∧ Cpx.norm a = Complex.normSq a.toC ∧
    Cpx.abs a = ‖a.toC‖ ∧ (Cpx.expj t).toC = Complex.exp (t * Complex.I) ∧
    (Cpx.polar r t).toC = r * Complex.exp (t * Complex.I) ∧
    (Cpx.v8x a).toC = Complex.exp (Complex.I * (Real.pi / 4)) * a.toC ∧
    (Cpx.w8x a).toC = Complex.exp (-Complex.I * (Real.pi / 4)) * a.toC := by
  have e := NoSse.exact
  have hn : Cpx.norm a = Complex.normSq a.toC := by
    rw [Complex.normSq_apply]; rfl
  have hp : ∀ r t : ℝ, (Cpx.polar r t).toC = r * Complex.exp (t * Complex.I) := fun r t => by
    rw [mul_comm (t : ℂ), exp_I_mul]
    apply Complex.ext
    · show r * Real.cos t = _; simp
    · show r * Real.sin t = _; simp
  refine ⟨rfl, rfl, rfl, fun h => ?_, ?_, fun h => ?_, rfl, rfl, e.jx a, e.mjx a, hn, ?_, ?_, hp r t, e.v8x a, e.w8x a⟩
  · exact e.div a b h
  · apply Complex.ext
    · show r * a 0 = _; simp [Xmm.toC]
    · show r * a 1 = _; simp [Xmm.toC]
  · rw [Complex.div_ofReal]; rfl
  · rw [← Real.sqrt_sq (norm_nonneg a.toC), ← Complex.normSq_eq_norm_sq, ← hn]; rfl
  · show (Cpx.polar ((1 : ℕ) : ℝ) t).toC = _
    rw [hp]; simp

/-- C34: the literals round to the same `double` as the numbers they stand for. (`H1X` and `H1Y` themselves are off from
the 17th digit on.) -/
theorem C34_constants : SameDouble litSqrt1_2 (√2 / 2) ∧ SameDouble litH1X (Real.cos (Real.pi / 8)) ∧
    SameDouble litH1Y (-Real.sin (Real.pi / 8)) ∧ SameDouble litPi Real.pi := by
  obtain ⟨⟨a, a'⟩, ⟨b, b'⟩, ⟨c, c'⟩, d, d'⟩ := lits
  exact ⟨⟨53, 6369051672525773, by norm_num, by norm_num, a, a'⟩, ⟨53, 8321567036706118, by norm_num, by norm_num, b, b'⟩,
    ⟨54, -6893811853601123, by norm_num, by norm_num, c, c'⟩, 51, 7074237752028440, by norm_num, by norm_num, d, d'⟩

/-! ### The library on different instruction sets -/

/-- C43: on all instruction sets without FMA, for the same input the transforms of each class return bit for bit the
same result, provided the arithmetic has the sign laws of IEEE 754: there is one function `out` of the length, the entry
point and the input that the library computes on every instruction set. -/
theorem C43_same [SignLaws F] [Inhabited F] (thr : Thr) (k : Kind) (n : ℕ) :
    ∃ out : k.Fn → (ℕ → Xmm F) → ℕ → Xmm F, ∀ i : Target, i.fma = false → letI := i.arith F
      ∀ (w : World (Xmm F)) (c : (k.cls (Xmm F) thr).Call) (v : ℕ → Xmm F), k.setupOK n → w.WF → k.callOK n c w.heap →
        Arr w.heap (k.input c) (k.need n c) v →
        ComputesIn (k.cls (Xmm F) thr) n [c] w (k.writes n c) (k.output c) n (out (k.fn c) v) := by
  have key : ∃ out : k.Fn → (ℕ → Xmm F) → ℕ → Xmm F, ∀ X : XmmOps F, X = NoSse.ops →
      letI := X.arith (Equiv.refl _)
      ∀ (w : World (Xmm F)) (c : (k.cls (Xmm F) thr).Call) (v : ℕ → Xmm F), k.setupOK n → w.WF → k.callOK n c w.heap →
        Arr w.heap (k.input c) (k.need n c) v →
        ComputesIn (k.cls (Xmm F) thr) n [c] w (k.writes n c) (k.output c) n (out (k.fn c) v) := by
    letI := (NoSse.ops (F := F)).arith (Equiv.refl _)
    obtain ⟨out, h, -⟩ := C41_values (Xmm F) thr k n
    refine ⟨out, ?_⟩
    rintro _ rfl
    exact h
  obtain ⟨out, h⟩ := key
  exact ⟨out, fun i hi => h _ (Target.xmm_eq i hi)⟩

/-- C43: compiled for any instruction set (with or without FMA), in exact arithmetic the library is the one all other
theorems about the values of the transforms are about; for example `fwd0` is the DFT. -/
theorem C43_exact (i : Target) : (i.xmm ℝ).arith cpx = instCArithRealComplex := by
  rw [Target.xmm_exact]
  exact NoSse.exact.arith fun _ _ => rfl

theorem C43_dft (i : Target) (thr : Thr) {n : ℕ} {w : World ℂ} {x : Ptr} {v : ℕ → ℂ} (hn : ValidLen n)
    (hx : UserArray w x n v) : letI := (i.xmm ℝ).arith cpx
    Computes (complexFFT ℂ thr) n [(.fwd0, x)] w x n (Spec.dft n v) := by
  have key : ∀ A : CArith ℝ ℂ, A = instCArithRealComplex → letI := A
      Computes (complexFFT ℂ thr) n [(.fwd0, x)] w x n (Spec.dft n v) := by
    rintro _ rfl
    exact C01_fwd0 thr hn hx
  exact key _ (C43_exact i)

/-! ### The hypotheses are met -/

/-- arithmetic on reals that rounds every result; only the symmetry of the rounding is assumed -/
@[instance_reducible] noncomputable def rounding (rnd : ℝ → ℝ) : FArith ℝ where
  fadd a b := rnd (a + b)
  fsub a b := rnd (a - b)
  fmul a b := rnd (a * b)
  fdiv a b := rnd (a / b)
  fneg a := -a
  fsqrt a := rnd (√a)
  fcos a := rnd (Real.cos a)
  fsin a := rnd (Real.sin a)
  fpi := rnd Real.pi
  fofNat n := rnd n
  ffma a b c := rnd (a * b + c)
  ffms a b c := rnd (a * b - c)
  sqrt1_2 := rnd litSqrt1_2
  h1x := rnd litH1X
  h1y := rnd litH1Y

/-- every arithmetic with symmetric rounding has the sign laws -/
theorem rounding_laws {rnd : ℝ → ℝ} (h : ∀ x, rnd (-x) = -rnd x) : @SignLaws ℝ (rounding rnd) := by
  letI := rounding rnd
  refine ⟨fun a b => ?_, fun a b => ?_, fun a b => ?_⟩
  · show rnd (a + b) = rnd (b + a); rw [add_comm]
  · show rnd (a - b) = rnd (a + -b); rw [sub_eq_add_neg]
  · show rnd (a * -b) = -rnd (a * b); rw [mul_neg, h]

/-- the instruction sets the library is built for -/
def sse2Build : Target := ⟨true, false, false, false, false⟩
def avxBuild : Target := ⟨true, true, false, true, false⟩

example : sse2Build.Valid ∧ avxBuild.Valid ∧ (⟨true, true, true, true, true⟩ : Target).Valid := by
  refine ⟨⟨?_, ?_, ?_⟩, ⟨?_, ?_, ?_⟩, ⟨?_, ?_, ?_⟩⟩ <;> simp [sse2Build, avxBuild]

/-- the SSE2 and the AVX build compute the same transform of length 12 -/
example [SignLaws F] [Inhabited F] (thr : Thr) (v : ℕ → Xmm F) :
    ∃ u : ℕ → Xmm F, ∀ i ∈ [sse2Build, avxBuild], letI := i.arith F
      ComputesIn (complexFFT (Xmm F) thr) 12 [(.fwd, Ptr.base 1)] (oneArray 12 v) (Region (Ptr.base 1) 12) (Ptr.base 1) 12 u := by
  obtain ⟨out, h⟩ := C43_same (F := F) thr .complex 12
  have ok := oneArray_ok 12 v
  refine ⟨out .fwd v, fun i hi => ?_⟩
  have hf : i.fma = false := by
    rcases List.mem_cons.1 hi with rfl | hi
    · rfl
    · rcases List.mem_cons.1 hi with rfl | hi
      · rfl
      · cases hi
  letI := i.arith F
  have ok' : Kind.callOK (thr := thr) .complex 12 (Entry.fwd, Ptr.base 1) (oneArray 12 v).heap :=
    ⟨validLen_of_le (by omega) (by omega), ok.arr.filled⟩
  exact h i hf (oneArray 12 v) (Entry.fwd, Ptr.base 1) v ⟨by omega, by omega⟩ ok.wf ok' ok.arr

/-- there is such a table for every power of two -/
example (i : Target) (k : ℕ) : (modqpz (i.xmm ℝ) (4 * 2 ^ k) 3
    (fun r => cpx (Complex.exp (-2 * Real.pi * Complex.I / (4 * 2 ^ k : ℕ) * r))) 5).toC =
      Complex.exp (-2 * Real.pi * Complex.I / (4 * 2 ^ k : ℕ) * (3 * 5 : ℕ)) :=
  (C34_modq i k 3 _ (fun _ _ => cpx.symm_apply_apply _) 5).2

end OTFFT.Props
