/-
C70: zeros in, zeros out.
-/
import Verif.Props.Hom
import Verif.Props.Ieee

namespace OTFFT.Props

variable [Libm]

/-- `+0` or `−0` -/
def IsZero (a : Dbl64) : Prop := ∃ z, a.d = .num 0 z

/-- both components are zeros -/
def Zero2 (a : Xmm Dbl64) : Prop := IsZero (a 0) ∧ IsZero (a 1)

omit [Libm] in
theorem IsZero.fin {a : Dbl64} (h : IsZero a) : Dbl64.Finite a ∧ Ieee.val a = 0 := by
  obtain ⟨z, h⟩ := h
  exact ⟨⟨0, z, h, 0, 0, by norm_num, by norm_num, by norm_num, by norm_num⟩, by unfold Ieee.val; rw [h]⟩

omit [Libm] in
theorem IsZero.opp {a : Dbl64} (h : IsZero a) : Ieee.opp a a := by
  obtain ⟨z, h⟩ := h
  show a.d.neg.same a.d
  rw [h]
  exact neg_zero

omit [Libm] in
/-- a finite number that is its own opposite -/
theorem IsZero.of {a : Dbl64} (h : Ieee.opp a a) (hf : Dbl64.Finite a) : IsZero a := by
  obtain ⟨x, z, e, -⟩ := hf
  have h : a.d.neg.same a.d := h
  rw [e] at h
  have h : -x = x := h
  exact ⟨z, by rw [e, show x = 0 by linarith]⟩

omit [Libm] in
theorem Zero2.fin {a : Xmm Dbl64} (h : Zero2 a) {M : ℝ} (hM : 0 ≤ M) : cfin Dbl64.Finite a ∧ ‖cval Ieee.val a‖ ≤ M := by
  refine ⟨⟨h.1.fin.1, h.2.fin.1⟩, ?_⟩
  unfold cval
  rw [h.1.fin.2, h.2.fin.2, show (⟨0, 0⟩ : ℂ) = 0 from rfl, norm_zero]
  exact hM

omit [Libm] in
/-- the sample bound used below is small enough -/
theorem tiny_ok {n : ℕ} (h31 : n ≤ 2 ^ 31) {j : ℕ} (hj : 31 ≤ j) : (n:ℝ) * (1 / 2 ^ 970) ≤ 2 ^ j := by
  have hn : (n:ℝ) ≤ 2 ^ 31 := by exact_mod_cast h31
  have h2 : (1:ℝ) / 2 ^ 970 ≤ 1 := div_le_one_of_le₀ (one_le_pow₀ (by norm_num)) (by positivity)
  calc (n:ℝ) * (1 / 2 ^ 970) ≤ 2 ^ 31 * 1 := mul_le_mul hn h2 (by positivity) (by positivity)
    _ = 2 ^ 31 := mul_one _
    _ ≤ _ := pow_le_pow_right₀ (by norm_num) hj

theorem out_fin (i : Target) (thr : Thr) (k : Kind) {n : ℕ} (hn : k.setupOK n) {h : Heap (Xmm Dbl64)} {v : ℕ → Xmm Dbl64} :
    letI := i.arith Dbl64
    ∀ (c : (k.cls (Xmm Dbl64) thr).Call), k.callOK n c h → (∀ t < needOf k n (k.fn c), Zero2 (v t)) →
    ∀ t < n, cfin Dbl64.Finite (k.out (Xmm Dbl64) thr n (k.fn c) v t) := by
  letI := i.arith Dbl64
  intro c ok hz t ht
  have m0 : (0:ℝ) ≤ 1 / 2 ^ 970 := by positivity
  have hfft : ∀ e : Entry, ValidLen n → (∀ t < n, Zero2 (v t)) →
      cfin Dbl64.Finite (fftOut (Xmm Dbl64) thr e.isInv e.mode n v t) := fun e hv hz =>
    (fftOut_err ieee_binary64 i hv.two hv.int.le le_rfl (tiny_ok hv.int.le (by norm_num))
      (fun t ht => (hz t ht).fin m0) thr e t ht).1
  have hdct : ∀ e : DctEntry, RealLen n → dctLen n → (∀ t < n, Zero2 (v t)) →
      cfin Dbl64.Finite (dctOut (Xmm Dbl64) thr e n v t) := fun e hr hd hz => by
    have h31 := RealLen.le31 hr
    have hM := tiny_ok h31 (j := 1016) (by norm_num)
    have h30 : n < 2 ^ 30 := by have := hd.2; omega
    have h := ((dblFlt ieee_binary64).apReal i).dctOut_ap (thr := thr) hr h30 e (dct_G hM) (scaled_ok hr.pos h31 e.mode le_rfl)
      (v' := v) (fun t ht => in_cpx ieee_binary64 le_rfl ((hz t ht).fin m0)) t ht
    have hw := half_weight h31
    exact (out_err ieee_binary64 h (scaled_le hr.pos h31 e.mode m0 (by norm_num) (dct_G hM)) (by omega)).1
  cases k with
  | complex =>
    have ok : complexOK n c h := ok
    exact hfft _ ok.1 hz
  | real =>
    have ok : realOK n c h := ok
    have hr := ok.1
    have h31 := RealLen.le31 hr
    have hM := tiny_ok h31 (j := 1016) (by norm_num)
    have h := ((dblFlt ieee_binary64).apReal i).rfftOut_ap (thr := thr) hr (c : Entry × Ptr × Ptr).1 (three_G hM)
      (scaled_ok hr.pos h31 _ le_rfl) (v' := v) (fun t ht => in_cpx ieee_binary64 le_rfl ((hz t ht).fin m0)) t ht
    have hw := half_weight h31
    exact (out_err ieee_binary64 h (scaled_le hr.pos h31 _ m0 (by norm_num) (three_G hM)) (by omega)).1
  | dct =>
    have ok : dctOK n c h := ok
    exact hdct _ ok.1 hn hz
  | bluestein =>
    have ok : blueOK n c h := ok
    have hn' : (n:ℝ) ≤ 2 ^ 29 := by exact_mod_cast ok.2.1
    have h2 : (1:ℝ) / 2 ^ 970 ≤ 1 := div_le_one_of_le₀ (one_le_pow₀ (by norm_num)) (by positivity)
    have hM : n * (n * (n * ((1:ℝ) / 2 ^ 970))) ≤ 2 ^ 1013 := by
      calc n * (n * (n * ((1:ℝ) / 2 ^ 970))) ≤ 2 ^ 29 * (2 ^ 29 * (2 ^ 29 * 1)) := by gcongr
        _ = 2 ^ 87 := by norm_num
        _ ≤ _ := pow_le_pow_right₀ (by norm_num) (by norm_num)
    exact (blueOut_err ieee_binary64 i ok.1 ok.2.1 le_rfl hM (fun t ht => (hz t ht).fin m0) thr _ t ht).1
  | fft0 =>
    have ok : rawFFTOK n c h := ok
    exact hfft _ ok.1 hz
  | dct0 =>
    have ok : rawDCTOK n c h := ok
    exact hdct _ ok.1 hn hz

/-- C70: if all samples are zeros (of either sign), so are all elements of the result: no residue of rounding errors, no NaN.
For IEEE doubles, every class, function, length, instruction set and threshold. -/
theorem C70_silence (i : Target) (thr : Thr) (k : Kind) {n : ℕ} (hn : k.setupOK n) :
    letI := i.arith Dbl64
    ∀ (w : World (Xmm Dbl64)) (c : (k.cls (Xmm Dbl64) thr).Call) (v : ℕ → Xmm Dbl64), w.WF → k.callOK n c w.heap →
      Arr w.heap (k.input c) (k.need n c) v → (∀ t < k.need n c, Zero2 (v t)) →
      ∃ out : ℕ → Xmm Dbl64, ComputesIn (k.cls (Xmm Dbl64) thr) n [c] w (k.writes n c) (k.output c) n out ∧
        ∀ t < n, Zero2 (out t) := by
  letI := i.arith Dbl64
  intro w c v hw ok hv hz
  refine ⟨_, Kind.computes thr hw hn ok hv, fun t ht => ?_⟩
  rw [need_eq] at hz
  have hM : (0:ℝ) ≤ maxDbl := by rw [maxDbl]; exact mul_nonneg (by norm_num) (by positivity)
  have hh := out_hom (u := v) (Target.homLaws (pres_of (preserved_opp hM rnd64_neg)) i (Equiv.refl _) (Equiv.refl _)) thr k
    (lenOK_of ok) (k.fn c) (fun t ht => ⟨(hz t ht).1.opp, (hz t ht).2.opp⟩) t ht
  have hf := out_fin i thr k hn c ok hz t ht
  exact ⟨IsZero.of hh.1 hf.1, IsZero.of hh.2 hf.2⟩

/-! ### Examples -/

/-- zeros of both signs, length 12, AVX with fused multiply-add -/
example (thr : Thr) : letI := avxBuild.arith Dbl64
    ∃ out : ℕ → Xmm Dbl64, ComputesIn (complexFFT (Xmm Dbl64) thr) 12 [(.inv, Ptr.base 1)]
      (oneArray 12 fun t => ![⟨.num 0 (t % 2 == 0)⟩, ⟨.num 0 (t % 3 == 0)⟩]) (Region (Ptr.base 1) 12) (Ptr.base 1) 12 out ∧
      ∀ t < 12, Zero2 (out t) := by
  have ok := oneArray_ok 12 fun t => (![⟨.num 0 (t % 2 == 0)⟩, ⟨.num 0 (t % 3 == 0)⟩] : Xmm Dbl64)
  have h12 := validLen_of_le (n := 12) (by omega) (by omega)
  exact C70_silence avxBuild thr .complex (show intLen (12 : ℕ) from ⟨by norm_num, by norm_num⟩) _ (.inv, Ptr.base 1) _ ok.wf
    ⟨h12, ok.arr.filled⟩ ok.arr (fun t _ => ⟨⟨_, rfl⟩, ⟨_, rfl⟩⟩)

/-- Bluestein's algorithm, length 10, SSE2 -/
example (thr : Thr) : letI := sse2Build.arith Dbl64
    ∃ out : ℕ → Xmm Dbl64, ComputesIn (bluesteinFFT (Xmm Dbl64) thr) 10 [(.fwd, Ptr.base 1)]
      (oneArray 10 fun _ => ![⟨.num 0 false⟩, ⟨.num 0 false⟩]) (Region (Ptr.base 1) 10) (Ptr.base 1) 10 out ∧
      ∀ t < 10, Zero2 (out t) := by
  have ok := oneArray_ok 10 fun _ => (![⟨.num 0 false⟩, ⟨.num 0 false⟩] : Xmm Dbl64)
  exact C70_silence sse2Build thr .bluestein (show blueLen (10 : ℕ) by unfold blueLen; norm_num) _ (.fwd, Ptr.base 1) _ ok.wf
    ⟨by norm_num, by norm_num, ok.arr.filled⟩ ok.arr (fun t _ => ⟨⟨_, rfl⟩, ⟨_, rfl⟩⟩)

end OTFFT.Props
