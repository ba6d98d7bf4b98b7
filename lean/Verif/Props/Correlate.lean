/-
C100: correlation by three transforms.
-/
import Verif.Props.Plane
import Verif.Props.Convolution
import Verif.Spec.Correlate

namespace OTFFT.Props
open OTFFT Finset

variable {n : ℕ}

theorem conv_reversed (hn : 0 < n) (a b : ℕ → ℂ) {t : ℕ} (ht : t < n) :
    Spec.conv n a (fun j => (starRingEnd ℂ) (b ((n - j) % n))) t = correlation n a b t := by
  unfold Spec.conv correlation
  symm
  refine sum_nbij' (fun j => (j + t) % n) (fun j => (j + n - t) % n) ?_ ?_ ?_ ?_ ?_
  · intro j _; exact mem_range.2 (Nat.mod_lt _ hn)
  · intro j _; exact mem_range.2 (Nat.mod_lt _ hn)
  · intro j hj
    have hj := mem_range.1 hj
    rcases Nat.lt_or_ge (j + t) n with h | h
    · rw [Nat.mod_eq_of_lt h, show j + t + n - t = j + n by omega, Nat.add_mod_right, Nat.mod_eq_of_lt hj]
    · rw [Nat.mod_eq_sub_mod h, Nat.mod_eq_of_lt (a := j + t - n) (by omega), show j + t - n + n - t = j by omega, Nat.mod_eq_of_lt hj]
  · intro j hj
    have hj := mem_range.1 hj
    rcases Nat.lt_or_ge j t with h | h
    · rw [Nat.mod_eq_of_lt (a := j + n - t) (by omega), show j + n - t + t = j + n by omega, Nat.add_mod_right, Nat.mod_eq_of_lt hj]
    · rw [show j + n - t = (j - t) + n by omega, Nat.add_mod_right, Nat.mod_eq_of_lt (a := j - t) (by omega),
        show j - t + t = j by omega, Nat.mod_eq_of_lt hj]
  · intro j hj
    have hj := mem_range.1 hj
    congr 3
    rcases Nat.lt_or_ge (j + t) n with h | h
    · rw [Nat.mod_eq_of_lt h, show t + n - (j + t) = n - j by omega]
      rcases Nat.eq_zero_or_pos j with rfl | hp
      · simp
      · rw [Nat.mod_eq_of_lt (a := n - j) (by omega), show n - (n - j) = j by omega, Nat.mod_eq_of_lt hj]
    · rw [Nat.mod_eq_sub_mod h, Nat.mod_eq_of_lt (a := j + t - n) (by omega), show t + n - (j + t - n) = (n - j) + n by omega,
        Nat.add_mod_right]
      rcases Nat.eq_zero_or_pos j with rfl | hp
      · omega
      · rw [Nat.mod_eq_of_lt (a := n - j) (by omega), show n - (n - j) = j by omega, Nat.mod_eq_of_lt hj]

theorem correlates_of (hn : 0 < n) (h31 : n ≤ 2 ^ 31) {G P : Entry → (ℕ → ℂ) → (ℕ → ℂ) → Prop} {tol tolP : ℝ} (ht0 : 0 ≤ tol)
    (hG : ∀ e u U, G e u U → ∀ k < n, ‖U k - e.exact n u k‖ ≤ e.factor n * n * tol)
    (hP : ∀ e u U, P e u U → ∀ k < n, ‖U k - e.exact n u k‖ ≤ e.factor n * n * tolP) : CorrelatesBy n G P tol tolP := by
  intro f g h a b A B Q q Ma Mb δ hf hg hh ha hb hA hB hq hd t ht
  have H := exact_identities hn
  have hgb : ∀ k < n, (starRingEnd ℂ) (g.exact n b k) = g.exact n (fun j => (starRingEnd ℂ) (b ((n - j) % n))) k := by
    intro k hk
    have h1 := H.conj g _ _ (H.reverse g b _ (fun _ _ => rfl)) k hk
    beta_reduce at h1
    rw [← h1]
    congr 2
    rcases Nat.eq_zero_or_pos k with rfl | hp
    · simp
    · rw [Nat.mod_eq_of_lt (a := n - k) (by omega), show n - (n - k) = k by omega, Nat.mod_eq_of_lt hk]
  have ex := exact_conv hf hg hh a (fun j => (starRingEnd ℂ) (b ((n - j) % n))) ht
  rw [conv_reversed hn a b ht] at ex
  have f0 : 0 ≤ f.factor n * n := mul_nonneg (factor_nonneg f) (by positivity)
  have g0 : 0 ≤ g.factor n * n := mul_nonneg (factor_nonneg g) (by positivity)
  have hQ : ∀ k < n, ‖Q k - f.exact n a k * g.exact n (fun j => (starRingEnd ℂ) (b ((n - j) % n))) k‖ ≤
      δ + f.factor n * n * (g.factor n * n) * (tol * (Mb + tol) + Ma * tol) := by
    intro k hk
    rw [← hgb k hk]
    have gA := hG f a A hA k hk
    have gB := hG g b B hB k hk
    have nα := exact_norm (by omega) h31 f ha k
    have nβ := exact_norm (by omega) h31 g hb k
    have dk := hd k hk
    generalize f.exact n a k = α at *
    generalize g.exact n b k = β at *
    have nB : ‖B k‖ ≤ g.factor n * n * (Mb + tol) := by
      have := norm_add_le (B k - β) β
      rw [sub_add_cancel] at this
      nlinarith
    have e1 : Q k - α * (starRingEnd ℂ) β =
        (Q k - A k * (starRingEnd ℂ) (B k)) + ((A k - α) * (starRingEnd ℂ) (B k) + α * (starRingEnd ℂ) (B k - β)) := by
      rw [map_sub]; ring
    rw [e1]
    refine le_trans (norm_add_le _ _) (add_le_add dk (le_trans (norm_add_le _ _) ?_))
    rw [norm_mul, norm_mul, Complex.norm_conj, Complex.norm_conj]
    have m1 := mul_le_mul gA nB (norm_nonneg _) (mul_nonneg f0 ht0)
    have m2 := mul_le_mul nα gB (norm_nonneg _) (le_trans (norm_nonneg _) nα)
    refine le_trans (add_le_add m1 m2) (le_of_eq (by ring))
  have h1 := hP h Q q hq t ht
  have h2 := exact_norm (u := fun k => Q k - f.exact n a k * g.exact n (fun j => (starRingEnd ℂ) (b ((n - j) % n))) k) (by omega) h31 h hQ t
  rw [← exact_sub, ex] at h2
  have := norm_add_le (q t - h.exact n Q t) (h.exact n Q t - ((f.factor n * g.factor n * h.factor n * n : ℝ) : ℂ) * correlation n a b t)
  rw [sub_add_sub_cancel] at this
  linarith

/-- C100: ComplexFFT in exact arithmetic. -/
theorem C100_exact (thr : Thr) (hn : ValidLen n) :
    CorrelatesBy n (fun e u U => ∀ w x, UserArray w x n u → Computes (complexFFT ℂ thr) n [(e, x)] w x n U)
      (fun e u U => ∀ w x, UserArray w x n u → Computes (complexFFT ℂ thr) n [(e, x)] w x n U) 0 0 := by
  have hn2 := hn.two
  exact correlates_of (by omega) hn.int.le le_rfl (complex_takes_exact thr hn) (complex_takes_exact thr hn)

/-- C100: Bluestein's transform in exact arithmetic. -/
theorem C100_bluestein_exact (thr : Thr) (h1 : 1 ≤ n) (h29 : n ≤ 2 ^ 29) :
    CorrelatesBy n (fun e u U => ∀ w x, UserArray w x n u → Computes (bluesteinFFT ℂ thr) n [(e, x)] w x n U)
      (fun e u U => ∀ w x, UserArray w x n u → Computes (bluesteinFFT ℂ thr) n [(e, x)] w x n U) 0 0 := by
  have key : ∀ e u U, (∀ w x, UserArray w x n u → Computes (bluesteinFFT ℂ thr) n [(e, x)] w x n U) →
      ∀ k < n, ‖U k - e.exact n u k‖ ≤ e.factor n * n * 0 := by
    intro e u U h k hk
    have ok := oneArray_ok n u
    rw [exact_eq, Computes_unique (r' := fun k => scC n e.mode * xdft e.isInv n u k) (by simp [oneArray]) (h _ _ ok)
      (blue_one thr h1 h29 ok e) k hk, sub_self, norm_zero, mul_zero]
  exact correlates_of h1 (le_trans h29 (by norm_num)) le_rfl key key

section floats
variable {F : Type} [FArith F] [Inhabited F] {val : F → ℝ} {fin : F → Prop} {M M' : ℝ}

/-- C100: ComplexFFT in double precision; the two objects may use different instruction sets; signals of magnitude at most `M`, product
of the spectra of magnitude at most `M'`. -/
theorem C100_complex (hF : Binary64 F val fin) (i i' : Target) (thr thr' : Thr) (hn : ValidLen n)
    (h0 : 1 / 2 ^ 970 ≤ M) (hM : n * M ≤ 2 ^ 1019) (h0' : 1 / 2 ^ 970 ≤ M') (hM' : n * M' ≤ 2 ^ 1019) :
    CorrelatesBy n (letI := i.arith F; RunsTo val fin M (complexFFT (Xmm F) thr) (fun e x => (e, x)) n)
      (letI := i'.arith F; RunsTo val fin M' (complexFFT (Xmm F) thr') (fun e x => (e, x)) n)
      (errWeight n / 2 ^ 52 * M) (errWeight n / 2 ^ 52 * M') := by
  have hn2 := hn.two
  have M0 : 0 ≤ M := le_trans (by positivity) h0
  exact correlates_of (by omega) hn.int.le (by positivity) (complex_err hF i thr hn h0 hM) (complex_err hF i' thr' hn h0' hM')

/-- C100: Bluestein's transform in double precision. -/
theorem C100_bluestein (hF : Binary64 F val fin) (i i' : Target) (thr thr' : Thr) (h1 : 1 ≤ n) (h29 : n ≤ 2 ^ 29)
    (h0 : 1 / 2 ^ 970 ≤ M) (hM : n * (n * (n * M)) ≤ 2 ^ 1013) (h0' : 1 / 2 ^ 970 ≤ M') (hM' : n * (n * (n * M')) ≤ 2 ^ 1013) :
    CorrelatesBy n (letI := i.arith F; RunsTo val fin M (bluesteinFFT (Xmm F) thr) (fun e x => (e, x)) n)
      (letI := i'.arith F; RunsTo val fin M' (bluesteinFFT (Xmm F) thr') (fun e x => (e, x)) n)
      ((150 * Nat.clog 2 n + 207) / 2 ^ 52 * (16 * (n * M))) ((150 * Nat.clog 2 n + 207) / 2 ^ 52 * (16 * (n * M'))) := by
  have M0 : 0 ≤ M := le_trans (by positivity) h0
  exact correlates_of h1 (le_trans h29 (by norm_num)) (by positivity) (bluestein_err hF i thr h1 h29 h0 hM)
    (bluestein_err hF i' thr' h1 h29 h0' hM')

end floats

/-- the correlation of two signals of 12 numbers at lag 5 -/
example (thr : Thr) (a b : ℕ → ℂ) : ∃ A B q : ℕ → ℂ,
    (∀ w x, UserArray w x 12 a → Computes (complexFFT ℂ thr) 12 [(.fwd0, x)] w x 12 A) ∧
    (∀ w x, UserArray w x 12 b → Computes (complexFFT ℂ thr) 12 [(.fwd0, x)] w x 12 B) ∧
    (∀ w x, UserArray w x 12 (fun k => A k * (starRingEnd ℂ) (B k)) → Computes (complexFFT ℂ thr) 12 [(.invn, x)] w x 12 q) ∧
    q 5 = ∑ j ∈ range 12, a ((j + 5) % 12) * (starRingEnd ℂ) (b j) := by
  have hv : ValidLen 12 := validLen_of_le (by norm_num) (by norm_num)
  have h1 : ∀ u w x, UserArray w x 12 u → Computes (complexFFT ℂ thr) 12 [(.fwd0, x)] w x 12 (Spec.dft 12 u) := fun u w x hx => C01_fwd0 thr hv hx
  let Q : ℕ → ℂ := fun k => Spec.dft 12 a k * (starRingEnd ℂ) (Spec.dft 12 b k)
  have h2 : ∀ w x, UserArray w x 12 Q → Computes (complexFFT ℂ thr) 12 [(.invn, x)] w x 12 fun k => scC 12 Entry.invn.mode * xdft true 12 Q k :=
    fun w x hx => computes_out hv hx [.invn] _ fun t ht => fftOut_C hv.two Q ht
  have hMa : ∀ j < 12, ‖a j‖ ≤ ∑ j ∈ range 12, ‖a j‖ := fun j hj =>
    single_le_sum (f := fun j => ‖a j‖) (fun _ _ => norm_nonneg _) (mem_range.2 hj)
  refine ⟨_, _, _, h1 a, h1 b, h2, ?_⟩
  have h := C100_exact thr hv .fwd0 .fwd0 .invn a b _ _ Q _ (∑ j ∈ range 12, ‖a j‖) (∑ j ∈ range 12, ‖b j‖) 0 (by simp) (by simp) (by simp) hMa
    (fun j hj => single_le_sum (f := fun j => ‖b j‖) (fun _ _ => norm_nonneg _) (mem_range.2 hj)) (h1 a) (h1 b) h2
    (fun k _ => by simp [Q]) 5 (by norm_num)
  simp only [zero_mul, mul_zero, add_zero] at h
  have h := sub_eq_zero.1 (norm_le_zero_iff.1 h)
  refine h.trans ?_
  simp [correlation, Entry.factor]

variable [Libm]

/-- the autocorrelation of 1000 IEEE complex doubles of magnitude at most 1, at every lag; the power spectrum has been rounded to
doubles of magnitude at most 2^24 -/
example (i i' : Target) (thr thr' : Thr) (v p : ℕ → Xmm Dbl64) (hv : ∀ t < 1000, cfin Dbl64.Finite (v t) ∧ ‖cval Ieee.val (v t)‖ ≤ 1)
    (hp : ∀ t < 1000, cfin Dbl64.Finite (p t) ∧ ‖cval Ieee.val (p t)‖ ≤ 2 ^ 24) :
    ∃ A q, (letI := i.arith Dbl64; RunsTo Ieee.val Dbl64.Finite 1 (complexFFT (Xmm Dbl64) thr) (fun e x => (e, x)) 1000 .fwd0
        (fun t => cval Ieee.val (v t)) A) ∧
      (letI := i'.arith Dbl64; RunsTo Ieee.val Dbl64.Finite (2 ^ 24) (complexFFT (Xmm Dbl64) thr') (fun e x => (e, x)) 1000 .invn
        (fun t => cval Ieee.val (p t)) q) ∧
      ((∀ k < 1000, ‖cval Ieee.val (p k) - A k * (starRingEnd ℂ) (A k)‖ ≤ 1 / 2 ^ 20) → ∀ t < 1000,
        ‖q t - ∑ j ∈ range 1000, cval Ieee.val (v ((j + t) % 1000)) * (starRingEnd ℂ) (cval Ieee.val (v j))‖ ≤
          errWeight 1000 / 2 ^ 52 * 2 ^ 24 + 1 / 2 ^ 20 +
            1000 * 1000 * (errWeight 1000 / 2 ^ 52 * (1 + errWeight 1000 / 2 ^ 52) + errWeight 1000 / 2 ^ 52)) := by
  have hn : ValidLen 1000 := validLen_of_le (by norm_num) (by norm_num)
  obtain ⟨A, hA⟩ := C77_runs (val := Ieee.val) (fin := Dbl64.Finite) (M := 1) i thr hn v hv .fwd0
  obtain ⟨q, hq⟩ := C77_runs (val := Ieee.val) (fin := Dbl64.Finite) (M := 2 ^ 24) i' thr' hn p hp .invn
  have q1 : (1 : ℝ) / 2 ^ 970 ≤ 1 := div_le_one_of_le₀ (one_le_pow₀ (by norm_num)) (by positivity)
  have H := C100_complex (n := 1000) (M := 1) (M' := 2 ^ 24) ieee_binary64 i i' thr thr' hn q1
    (le_trans (b := 2 ^ 10) (by norm_num) (pow_le_pow_right₀ (by norm_num) (by norm_num))) (le_trans q1 (by norm_num))
    (le_trans (b := 2 ^ 34) (by norm_num) (pow_le_pow_right₀ (by norm_num) (by norm_num)))
  refine ⟨A, q, hA, hq, fun hd t ht => ?_⟩
  have h := H .fwd0 .fwd0 .invn _ _ A A _ q 1 1 _ (by simp) (by simp) (by simp) (fun j hj => (hv j hj).2) (fun j hj => (hv j hj).2)
    hA hA hq hd t ht
  simp only [Entry.factor, correlation] at h
  convert h using 2
  · norm_num
  · push_cast
    ring

end OTFFT.Props
