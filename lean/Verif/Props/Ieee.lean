/-
C60: IEEE 754 doubles with gradual underflow, infinities and NaN. Finite input of moderate size gives finite output.
-/
import Verif.Proof.Binary64
import Verif.Props.AccuracyBlue
import Verif.Props.Simd
import Verif.Props.Hom

namespace OTFFT.Props

variable [Libm]

/-- C60: IEEE 754 binary64 — rounding to nearest with ties to even, gradual underflow, signed zeros, infinities, NaN —
satisfies what the theorems on accuracy (C46, C47, C48, C58, C59) assume of the arithmetic, … -/
theorem C60_laws : Binary64 Dbl64 Ieee.val Dbl64.Finite := ieee_binary64

/-- … and what the theorem on different instruction sets (C43) assumes of it. -/
theorem C60_signs : SignLaws Dbl64 := ieee_signLaws

omit [Libm] in
/-- the bounds of C46 without a lower bound on the data -/
theorem floorM {n : ℕ} (hn : n ≤ 2 ^ 31) {M B : ℝ} (h0 : 2 ^ 900 ≤ B) (hM : n * M ≤ B) : n * max M (1 / 2 ^ 970) ≤ B := by
  have hn' : (n:ℝ) ≤ 2 ^ 31 := by exact_mod_cast hn
  rw [mul_max_of_nonneg _ _ (Nat.cast_nonneg n)]
  refine max_le hM (le_trans ?_ h0)
  refine le_trans (mul_le_mul hn' (one_div_le_one_div_of_le (by norm_num : (0:ℝ) < 1) (one_le_pow₀ (by norm_num))) (by positivity) (by positivity)) ?_
  rw [div_one, mul_one]
  exact pow_le_pow_right₀ (by norm_num) (by norm_num)

variable {w : World (Xmm Dbl64)} {x y : Ptr} {n : ℕ} {M : ℝ}

/-- C60: the complex transforms in IEEE arithmetic. If all samples are finite and none exceeds `2^1019 / n`, no infinity and
no NaN appears in the result, for every length, entry point, instruction set and threshold. -/
theorem C60_complex (i : Target) (thr : Thr) (hn : ValidLen n) {v : ℕ → Xmm Dbl64} (hx : UserArray w x n v)
    (hM : n * M ≤ 2 ^ 1019) (hv : ∀ t < n, cfin Dbl64.Finite (v t) ∧ ‖cval Ieee.val (v t)‖ ≤ M) (e : Entry) :
    letI := i.arith Dbl64
    ∃ out : ℕ → Xmm Dbl64, Computes (complexFFT (Xmm Dbl64) thr) n [(e, x)] w x n out ∧
      ∀ t < n, Dbl64.Finite (out t 0) ∧ Dbl64.Finite (out t 1) := by
  obtain ⟨out, h, b⟩ := C46_accuracy ieee_binary64 i thr hn hx (le_max_right M _)
    (floorM hn.int.le (pow_le_pow_right₀ (by norm_num) (by norm_num)) hM)
    (fun t ht => ⟨(hv t ht).1, le_trans (hv t ht).2 (le_max_left _ _)⟩) e
  exact ⟨out, h, fun t ht => (b t ht).1⟩

/-- C60: the forward real transforms -/
theorem C60_real_forward (i : Target) (thr : Thr) (hn : RealLen n) (wf : w.WF) {d : ℕ → Dbl64}
    (hx : Arr w.heap x n (doubles d)) (hy : Alloc w.heap y n) (hxy : Sep x n y n) (hM : n * M ≤ 2 ^ 1016)
    (hd : ∀ t < n, Dbl64.Finite (d t) ∧ |Ieee.val (d t)| ≤ M) (e : Entry) (he : e ∈ [Entry.fwd, .fwd0, .fwdu, .fwdn]) :
    letI := i.arith Dbl64
    ∃ out : ℕ → Xmm Dbl64, Computes (realFFT (Xmm Dbl64) thr) n [(e, x, y)] w y n out ∧
      ∀ t < n, Dbl64.Finite (out t 0) ∧ Dbl64.Finite (out t 1) := by
  obtain ⟨out, h, b⟩ := C47_real_forward ieee_binary64 i thr hn wf hx hy hxy (le_max_right M _)
    (floorM (RealLen.le31 hn) (pow_le_pow_right₀ (by norm_num) (by norm_num)) hM)
    (fun t ht => ⟨(hd t ht).1, le_trans (hd t ht).2 (le_max_left _ _)⟩) e he
  exact ⟨out, h, fun t ht => (b t ht).1⟩

/-- C60: the inverse real transforms -/
theorem C60_real_inverse (i : Target) (thr : Thr) (hn : RealLen n) (wf : w.WF) {v : ℕ → Xmm Dbl64}
    (hx : Arr w.heap x (n / 2 + 1) v) (hx' : Alloc w.heap x n) (hy : Alloc w.heap y n) (hxy : Sep x n y n)
    (hM : n * M ≤ 2 ^ 1016) (hv : ∀ t ≤ n / 2, cfin Dbl64.Finite (v t) ∧ ‖cval Ieee.val (v t)‖ ≤ M)
    {X : ℕ → ℂ} (hX : Spec.Hermitian n X) (hXv : ∀ t ≤ n / 2, X t = cval Ieee.val (v t)) (e : Entry)
    (he : e ∈ [Entry.inv, .inv0, .invu, .invn]) :
    letI := i.arith Dbl64
    ∃ out : ℕ → Dbl64, ComputesIn (realFFT (Xmm Dbl64) thr) n [(e, x, y)] w (Region x n) y n (doubles out) ∧
      ∀ t < n, Dbl64.Finite (out t) := by
  obtain ⟨out, h, b⟩ := C47_real_inverse ieee_binary64 i thr hn wf hx hx' hy hxy (le_max_right M _)
    (floorM (RealLen.le31 hn) (pow_le_pow_right₀ (by norm_num) (by norm_num)) hM)
    (fun t ht => ⟨(hv t ht).1, le_trans (hv t ht).2 (le_max_left _ _)⟩) hX hXv e he
  exact ⟨out, h, fun t ht => (b t ht).1⟩

/-- C60: the cosine transforms -/
theorem C60_dct (i : Target) (thr : Thr) (hn : RealLen n) (h30 : n < 2 ^ 30) (wf : w.WF) {d : ℕ → Dbl64}
    (hx : Arr w.heap x n (doubles d)) (hM : n * M ≤ 2 ^ 1016)
    (hd : ∀ t < n, Dbl64.Finite (d t) ∧ |Ieee.val (d t)| ≤ M) (e : DctEntry) :
    letI := i.arith Dbl64
    ∃ out : ℕ → Dbl64, Computes (realDCT (Xmm Dbl64) thr) n [(e, x)] w x n (doubles out) ∧
      ∀ t < n, Dbl64.Finite (out t) := by
  obtain ⟨out, h, b⟩ := C47_dct ieee_binary64 i thr hn h30 wf hx (le_max_right M _)
    (floorM (RealLen.le31 hn) (pow_le_pow_right₀ (by norm_num) (by norm_num)) hM)
    (fun t ht => ⟨(hd t ht).1, le_trans (hd t ht).2 (le_max_left _ _)⟩) e
  exact ⟨out, h, fun t ht => (b t ht).1⟩

/-- C60: Bluestein's algorithm. The bound on the samples is `2^1013 / n³`. -/
theorem C60_bluestein (i : Target) (thr : Thr) (h1 : 1 ≤ n) (h29 : n ≤ 2 ^ 29) {v : ℕ → Xmm Dbl64} (hx : UserArray w x n v)
    (hM : n * (n * (n * M)) ≤ 2 ^ 1013) (hv : ∀ t < n, cfin Dbl64.Finite (v t) ∧ ‖cval Ieee.val (v t)‖ ≤ M) (e : Entry) :
    letI := i.arith Dbl64
    ∃ out : ℕ → Xmm Dbl64, Computes (bluesteinFFT (Xmm Dbl64) thr) n [(e, x)] w x n out ∧
      ∀ t < n, Dbl64.Finite (out t 0) ∧ Dbl64.Finite (out t 1) := by
  have hb : n * (n * (n * max M (1 / 2 ^ 970))) ≤ (2:ℝ) ^ 1013 := by
    rcases le_total M (1 / 2 ^ 970) with h | h
    · have hn' : (n:ℝ) ≤ 2 ^ 29 := by exact_mod_cast h29
      rw [max_eq_right h]
      have h2 : (1:ℝ) / 2 ^ 970 ≤ 1 := div_le_one_of_le₀ (one_le_pow₀ (by norm_num)) (by positivity)
      calc n * (n * (n * ((1:ℝ) / 2 ^ 970))) ≤ 2 ^ 29 * (2 ^ 29 * (2 ^ 29 * 1)) := by gcongr
        _ = 2 ^ 87 := by norm_num
        _ ≤ _ := pow_le_pow_right₀ (by norm_num) (by norm_num)
    · rwa [max_eq_left h]
  obtain ⟨out, h, b⟩ := C48_bluestein ieee_binary64 i thr h1 h29 hx (le_max_right M _) hb
    (fun t ht => ⟨(hv t ht).1, le_trans (hv t ht).2 (le_max_left _ _)⟩) e
  exact ⟨out, h, fun t ht => (b t ht).1⟩

omit [Libm] in
theorem maxDbl_double : IsDouble maxDbl :=
  ⟨2 ^ 53 - 1, 971, by norm_num, by norm_num, by norm_num, maxDbl_eq⟩

/-- twice the largest double is an infinity -/
theorem add_max : fadd (⟨.num maxDbl false⟩ : Dbl64) ⟨.num maxDbl false⟩ = ⟨.inf false⟩ := by
  have hpos : 0 < maxDbl := lt_of_lt_of_le (by norm_num) one_le_maxDbl
  have h : maxDbl < |rnd64 (maxDbl + maxDbl)| := by
    have hl : -1022 ≤ Int.log 2 |maxDbl + maxDbl| := by
      refine le_trans (by norm_num) (log_ge_of (e := 0) ?_)
      have := one_le_maxDbl
      rw [abs_of_pos (by linarith), zpow_zero]
      norm_num at this
      linarith
    have h := rnd64_rel hl
    have h2 : maxDbl + maxDbl - |rnd64 (maxDbl + maxDbl)| ≤ 1 / 2 ^ 53 * (maxDbl + maxDbl) := by
      refine le_trans ?_ (le_trans h (le_of_eq (by rw [abs_of_pos (by linarith)])))
      have := abs_sub_abs_le_abs_sub (maxDbl + maxDbl) (rnd64 (maxDbl + maxDbl))
      rw [abs_of_pos (by linarith : 0 < maxDbl + maxDbl), abs_sub_comm] at this
      exact this
    norm_num at h2
    linarith
  show (⟨Dbl.rnd rnd64 maxDbl (maxDbl + maxDbl) _⟩ : Dbl64) = _
  unfold Dbl.rnd
  rw [if_pos h, decide_eq_false (by linarith)]

/-- C60: the bound on the size of the samples cannot be dropped, not even for the normalised transforms, whose exact result
is never larger than the largest sample: three samples that are the largest double have that number as their mean, but
`fwd` computes an infinity, on every instruction set. (The division by `n` comes last.) -/
theorem C60_overflow (i : Target) (thr : Thr) {v : ℕ → Xmm Dbl64} (hv : ∀ t < 3, v t = ![⟨.num maxDbl false⟩, ⟨.num 0 false⟩])
    (hx : UserArray w x 3 v) :
    letI := i.arith Dbl64
    Entry.exact 3 .fwd (fun j => cval Ieee.val (v j)) 0 = maxDbl ∧
    ∃ out : ℕ → Xmm Dbl64, Computes (complexFFT (Xmm Dbl64) thr) 3 [(.fwd, x)] w x 3 out ∧ (out 0 0).notFinite := by
  letI := i.arith Dbl64
  have h3 : ValidLen 3 := validLen_of_le (by omega) (by omega)
  have hadd : ∀ a b : Xmm Dbl64, (addpz a b : Xmm Dbl64) 0 = fadd (a 0) (b 0) := fun a b => by
    show (i.xmm Dbl64).addpz a b 0 = _
    unfold Target.xmm
    split
    · split <;> rfl
    · rfl
  have hscl : ∀ (r : Dbl64) (a : Xmm Dbl64), (scl r a : Xmm Dbl64) 0 = fmul r (a 0) := fun r a => by
    show (i.xmm Dbl64).mulpd ![r, r] a 0 = _
    unfold Target.xmm
    split
    · split <;> rfl
    · rfl
  refine ⟨?_, _, ⟨FFT.calls (es := [.fwd]) h3 hx, FFT.lifetime_noFail _ (by omega) _ (lenNat_calls _)⟩, ?_⟩
  · have e : ∀ t ∈ Finset.range 3, cval Ieee.val (v t) = (maxDbl : ℂ) := fun t ht => by
      rw [hv t (Finset.mem_range.1 ht)]; rfl
    simp only [Entry.exact, Spec.dft, Entry.factor]
    rw [Finset.sum_congr rfl fun t ht => by rw [e t ht, Nat.cast_zero, mul_zero, zero_div, Complex.exp_zero, mul_one]]
    simp
  · have hd : dispatch (logOf 3) = some .mixed := by
      rw [logOf_none fun k => ?_]
      · rfl
      · rcases k with _ | _ | k
        · norm_num
        · norm_num
        · rw [pow_succ, pow_succ]; omega
    have hout : fftOut (Xmm Dbl64) thr Entry.fwd.isInv Entry.fwd.mode 3 v 0 =
        scl (fdiv (fofNat 1) (fofNat 3)) (addpz (addpz (v 0) (v 1)) (v 2)) := by
      unfold fftOut
      rw [hd]
      show mixScale 3 .scale_length (mixRec false 3 _ 3 1 v 0) = _
      rw [mixRec.eq_def]
      rfl
    show Ieee.notFinite (fftOut (Xmm Dbl64) thr Entry.fwd.isInv Entry.fwd.mode 3 v 0 0)
    rw [hout, hscl, hadd, hadd, hv 0 (by omega), hv 1 (by omega)]
    refine Ieee.absorb_notFinite.mul _ _ (.inr (Ieee.absorb_notFinite.add _ _ (.inl ?_)))
    show Ieee.notFinite (fadd (⟨.num maxDbl false⟩ : Dbl64) ⟨.num maxDbl false⟩)
    rw [add_max]
    intro _ _ e
    cases e

/-! ### Examples -/

/-- a signal of subnormal numbers, length 1000: finite results -/
example (thr : Thr) : letI := avxBuild.arith Dbl64
    ∃ out : ℕ → Xmm Dbl64, Computes (complexFFT (Xmm Dbl64) thr) 1000 [(.fwd, Ptr.base 1)]
      (oneArray 1000 fun t => ![⟨.num (2 ^ (-1074:ℤ)) false⟩, ⟨.num (-2 ^ (-1070:ℤ)) true⟩]) (Ptr.base 1) 1000 out ∧
      ∀ t < 1000, Dbl64.Finite (out t 0) ∧ Dbl64.Finite (out t 1) := by
  have h1 : ∀ k : ℤ, k ≤ 0 → (2:ℝ) ^ k ≤ 1 := fun k hk => zpow_le_one_of_nonpos₀ (by norm_num) hk
  have p1 := two_zpow_pos (-1074)
  have p2 := two_zpow_pos (-1070)
  have b1 := h1 (-1074) (by norm_num)
  have b2 := h1 (-1070) (by norm_num)
  refine C60_complex avxBuild thr (validLen_of_le (by omega) (by omega)) (oneArray_ok 1000 _) (M := 2) ?_ (fun t _ => ⟨⟨?_, ?_⟩, ?_⟩) .fwd
  · refine le_trans (by norm_num : _ ≤ (2:ℝ) ^ 11) (pow_le_pow_right₀ (by norm_num) (by norm_num))
  · exact ⟨_, _, rfl, 1, -1074, by norm_num, by norm_num, by norm_num, by push_cast; rw [one_mul]⟩
  · exact ⟨_, _, rfl, -1, -1070, by norm_num, by norm_num, by norm_num, by push_cast; rw [neg_one_mul]⟩
  · refine le_trans (Complex.norm_le_abs_re_add_abs_im _) ?_
    show |(2:ℝ) ^ (-1074:ℤ)| + |-(2:ℝ) ^ (-1070:ℤ)| ≤ 2
    rw [abs_neg, abs_of_pos p1, abs_of_pos p2]
    linarith

/-- the overflow happens: three samples of maximal size, single array -/
example (thr : Thr) : letI := avxBuild.arith Dbl64
    ∃ out : ℕ → Xmm Dbl64, Computes (complexFFT (Xmm Dbl64) thr) 3 [(.fwd, Ptr.base 1)]
      (oneArray 3 fun _ => ![⟨.num maxDbl false⟩, ⟨.num 0 false⟩]) (Ptr.base 1) 3 out ∧ (out 0 0).notFinite :=
  (C60_overflow avxBuild thr (fun _ _ => rfl) (oneArray_ok 3 _)).2

/-- the rounding is gradual underflow: a third of the smallest double is rounded to 0, two thirds to the smallest double -/
example : rnd64 (2 ^ (-1074:ℤ) / 3) = 0 ∧ rnd64 (2 * 2 ^ (-1074:ℤ) / 3) = 2 ^ (-1074:ℤ) := by
  have key : ∀ (c : ℝ) (m : ℤ), |c - m| < 1 / 2 → 0 < c → c < 1 → rnd64 (c * 2 ^ (-1074:ℤ)) = m * 2 ^ (-1074:ℤ) := fun c m h h0 h1 => by
    have hp := two_zpow_pos (-1074)
    have hl : lastPlace (c * 2 ^ (-1074:ℤ)) = -1074 := by
      have : Int.log 2 |c * 2 ^ (-1074:ℤ)| < -1074 := by
        have hx : c * (2:ℝ) ^ (-1074:ℤ) ≠ 0 := by positivity
        refine (zpow_lt_zpow_iff_right₀ (show (1:ℝ) < 2 by norm_num)).1 (lt_of_le_of_lt (log_le_abs hx) ?_)
        rw [abs_of_pos (by positivity)]
        nlinarith
      unfold lastPlace
      omega
    unfold rnd64
    rw [hl, mul_div_cancel_right₀ _ hp.ne', rne_near h]
  constructor
  · have := key (1 / 3) 0 (by norm_num [abs_lt]) (by norm_num) (by norm_num)
    rw [Int.cast_zero, zero_mul] at this
    rw [← this]; congr 1; ring
  · have := key (2 / 3) 1 (by norm_num [abs_lt]) (by norm_num) (by norm_num)
    rw [Int.cast_one, one_mul] at this
    rw [← this]; congr 1; rw [this]; ring

end OTFFT.Props
