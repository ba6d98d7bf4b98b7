/-
C101: inner products and energies of spectra.
-/
import Verif.Props.Correlate
import Verif.Spec.Inner

namespace OTFFT.Props
open OTFFT Finset

variable {n : ℕ}

theorem exact_inner_fwd (hn : 0 < n) {e e' : Entry} (he : e ∈ [Entry.fwd, .fwd0, .fwdu, .fwdn]) (he' : e' ∈ [Entry.fwd, .fwd0, .fwdu, .fwdn])
    (a b : ℕ → ℂ) : innerProduct n (e.exact n a) (e'.exact n b) = ((e.factor n * e'.factor n * n : ℝ) : ℂ) * innerProduct n a b := by
  have H := exact_identities hn
  have hgb : ∀ k < n, (starRingEnd ℂ) (e'.exact n b k) = e'.exact n (fun j => (starRingEnd ℂ) (b ((n - j) % n))) k := by
    intro k hk
    have h1 := H.conj e' _ _ (H.reverse e' b _ (fun _ _ => rfl)) k hk
    beta_reduce at h1
    rw [← h1]
    congr 2
    rcases Nat.eq_zero_or_pos k with rfl | hp
    · simp
    · rw [Nat.mod_eq_of_lt (a := n - k) (by omega), show n - (n - k) = k by omega, Nat.mod_eq_of_lt hk]
  have ex := exact_conv he he' (h := .inv0) (by simp) a (fun j => (starRingEnd ℂ) (b ((n - j) % n))) hn
  rw [conv_reversed hn a b hn, exact_eq, xdft_sum] at ex
  have l : innerProduct n (e.exact n a) (e'.exact n b) =
      ∑ k ∈ range n, e.exact n a k * e'.exact n (fun j => (starRingEnd ℂ) (b ((n - j) % n))) k :=
    sum_congr rfl fun k hk => by rw [hgb k (mem_range.1 hk)]
  have r : correlation n a b 0 = innerProduct n a b :=
    sum_congr rfl fun j hj => by rw [add_zero, Nat.mod_eq_of_lt (mem_range.1 hj)]
  rw [r] at ex
  rw [l]
  simpa [scC, Entry.mode, Entry.factor] using ex

theorem exact_inner (hn : 0 < n) {e e' : Entry} (h : e.sign = e'.sign) (a b : ℕ → ℂ) :
    innerProduct n (e.exact n a) (e'.exact n b) = ((e.factor n * e'.factor n * n : ℝ) : ℂ) * innerProduct n a b := by
  have H := exact_identities hn
  have key : ∀ e : Entry, (e ∈ [Entry.fwd, .fwd0, .fwdu, .fwdn] ∧ e.sign = -1) ∨ (e.sign = 1 ∧ ∃ g ∈ [Entry.fwd, .fwd0, .fwdu, .fwdn],
      g.factor n = e.factor n ∧ ∀ (u : ℕ → ℂ), ∀ k < n, e.exact n u k = (starRingEnd ℂ) (g.exact n (fun j => (starRingEnd ℂ) (u j)) k)) := by
    intro e
    have sw : ∀ g : Entry, (g, e) ∈ opposite → ∀ (u : ℕ → ℂ), ∀ k < n,
        e.exact n u k = (starRingEnd ℂ) (g.exact n (fun j => (starRingEnd ℂ) (u j)) k) := by
      intro g hg u k hk
      have h1 := H.swapConj g e (fun j => (starRingEnd ℂ) (u j)) _ hg (fun _ _ => rfl) k hk
      simp only [Complex.conj_conj] at h1
      exact h1.symm
    cases e
    all_goals first
      | exact Or.inl ⟨by simp, rfl⟩
      | exact Or.inr ⟨rfl, .fwd0, by simp, rfl, sw .fwd0 (by simp [opposite])⟩
      | exact Or.inr ⟨rfl, .fwdn, by simp, rfl, sw .fwdn (by simp [opposite])⟩
      | exact Or.inr ⟨rfl, .fwdu, by simp, rfl, sw .fwdu (by simp [opposite])⟩
  rcases key e with ⟨m, s⟩ | ⟨s, g, m, f, x⟩ <;> rcases key e' with ⟨m', s'⟩ | ⟨s', g', m', f', x'⟩
  · exact exact_inner_fwd hn m m' a b
  · rw [s, s'] at h; norm_num at h
  · rw [s, s'] at h; norm_num at h
  · have h1 := congrArg (starRingEnd ℂ) (exact_inner_fwd hn m m' (fun j => (starRingEnd ℂ) (a j)) (fun j => (starRingEnd ℂ) (b j)))
    rw [f, f'] at h1
    unfold innerProduct at h1 ⊢
    rw [map_mul, map_sum, map_sum, Complex.conj_ofReal] at h1
    simp only [map_mul, Complex.conj_conj] at h1
    rw [← h1]
    exact sum_congr rfl fun k hk => by rw [x a k (mem_range.1 hk), x' b k (mem_range.1 hk), Complex.conj_conj]

theorem keepsInner_of (hn : 0 < n) (h31 : n ≤ 2 ^ 31) {G : Entry → (ℕ → ℂ) → (ℕ → ℂ) → Prop} {tol : ℝ} (ht0 : 0 ≤ tol)
    (hG : ∀ e u U, G e u U → ∀ k < n, ‖U k - e.exact n u k‖ ≤ e.factor n * n * tol) : KeepsInner n G tol := by
  intro f g a b A B Ma Mb hs ha hb hA hB
  have f0 : 0 ≤ f.factor n * n := mul_nonneg (factor_nonneg f) (by positivity)
  rw [← exact_inner hn hs a b]
  unfold innerProduct
  rw [← sum_sub_distrib]
  have one : ∀ k ∈ range n, ‖A k * (starRingEnd ℂ) (B k) - f.exact n a k * (starRingEnd ℂ) (g.exact n b k)‖ ≤
      f.factor n * n * (g.factor n * n) * (tol * (Mb + tol) + Ma * tol) := by
    intro k hk
    have hk := mem_range.1 hk
    have gA := hG f a A hA k hk
    have gB := hG g b B hB k hk
    have nα := exact_norm (by omega) h31 f ha k
    have nβ := exact_norm (by omega) h31 g hb k
    generalize f.exact n a k = α at *
    generalize g.exact n b k = β at *
    have nB : ‖B k‖ ≤ g.factor n * n * (Mb + tol) := by
      have := norm_add_le (B k - β) β
      rw [sub_add_cancel] at this
      nlinarith
    have e1 : A k * (starRingEnd ℂ) (B k) - α * (starRingEnd ℂ) β = (A k - α) * (starRingEnd ℂ) (B k) + α * (starRingEnd ℂ) (B k - β) := by
      rw [map_sub]; ring
    rw [e1]
    refine le_trans (norm_add_le _ _) ?_
    rw [norm_mul, norm_mul, Complex.norm_conj, Complex.norm_conj]
    have m1 := mul_le_mul gA nB (norm_nonneg _) (mul_nonneg f0 ht0)
    have m2 := mul_le_mul nα gB (norm_nonneg _) (le_trans (norm_nonneg _) nα)
    refine le_trans (add_le_add m1 m2) (le_of_eq (by ring))
  refine le_trans (norm_sum_le_of_le _ one) (le_of_eq ?_)
  simp only [sum_const, card_range, nsmul_eq_mul]
  ring

/-- C101: ComplexFFT in exact arithmetic. -/
theorem C101_exact (thr : Thr) (hn : ValidLen n) :
    KeepsInner n (fun e u U => ∀ w x, UserArray w x n u → Computes (complexFFT ℂ thr) n [(e, x)] w x n U) 0 := by
  have hn2 := hn.two
  exact keepsInner_of (by omega) hn.int.le le_rfl (complex_takes_exact thr hn)

/-- C101: Bluestein's transform in exact arithmetic. -/
theorem C101_bluestein_exact (thr : Thr) (h1 : 1 ≤ n) (h29 : n ≤ 2 ^ 29) :
    KeepsInner n (fun e u U => ∀ w x, UserArray w x n u → Computes (bluesteinFFT ℂ thr) n [(e, x)] w x n U) 0 := by
  refine keepsInner_of h1 (le_trans h29 (by norm_num)) le_rfl fun e u U h k hk => ?_
  have ok := oneArray_ok n u
  rw [exact_eq, Computes_unique (r' := fun k => scC n e.mode * xdft e.isInv n u k) (by simp [oneArray]) (h _ _ ok)
    (blue_one thr h1 h29 ok e) k hk, sub_self, norm_zero, mul_zero]

/-- C101: RealFFT in exact arithmetic: forward of real signals, inverse of Hermitian spectra. -/
theorem C101_real_exact (thr : Thr) (hn : RealLen n) : KeepsInner n (RealTakes thr n) 0 :=
  keepsInner_of hn.pos (RealLen.le31 hn) le_rfl fun e v V h k hk => by rw [realTakes_exact thr hn h k hk, sub_self, norm_zero, mul_zero]

section floats
variable {F : Type} [FArith F] [Inhabited F] {val : F → ℝ} {fin : F → Prop} {M : ℝ}

/-- C101: ComplexFFT in double precision. -/
theorem C101_complex (hF : Binary64 F val fin) (i : Target) (thr : Thr) (hn : ValidLen n) (h0 : 1 / 2 ^ 970 ≤ M) (hM : n * M ≤ 2 ^ 1019) :
    KeepsInner n (letI := i.arith F; RunsTo val fin M (complexFFT (Xmm F) thr) (fun e x => (e, x)) n) (errWeight n / 2 ^ 52 * M) := by
  have hn2 := hn.two
  have M0 : 0 ≤ M := le_trans (by positivity) h0
  exact keepsInner_of (by omega) hn.int.le (by positivity) (complex_err hF i thr hn h0 hM)

/-- C101: Bluestein's transform in double precision. -/
theorem C101_bluestein (hF : Binary64 F val fin) (i : Target) (thr : Thr) (h1 : 1 ≤ n) (h29 : n ≤ 2 ^ 29) (h0 : 1 / 2 ^ 970 ≤ M)
    (hM : n * (n * (n * M)) ≤ 2 ^ 1013) :
    KeepsInner n (letI := i.arith F; RunsTo val fin M (bluesteinFFT (Xmm F) thr) (fun e x => (e, x)) n)
      ((150 * Nat.clog 2 n + 207) / 2 ^ 52 * (16 * (n * M))) := by
  have M0 : 0 ≤ M := le_trans (by positivity) h0
  exact keepsInner_of h1 (le_trans h29 (by norm_num)) (by positivity) (bluestein_err hF i thr h1 h29 h0 hM)

/-- C101: RealFFT in double precision. -/
theorem C101_real (hF : Binary64 F val fin) (i : Target) (thr : Thr) (hn : RealLen n) (h0 : 1 / 2 ^ 970 ≤ M) (hM : n * M ≤ 2 ^ 1016) :
    KeepsInner n (letI := i.arith F; RealRunsTo val fin M (realFFT (Xmm F) thr) (fun e x y => (e, x, y)) n)
      ((errWeight (n / 2) + 84) / 2 ^ 52 * (3 * M)) := by
  have M0 : 0 ≤ M := le_trans (by positivity) h0
  exact keepsInner_of hn.pos (RealLen.le31 hn) (by positivity) (real_err hF i thr hn h0 hM)

end floats

variable [Libm]

/-- the energy of the spectrum of 1000 IEEE complex doubles of magnitude at most 1, forward without normalisation -/
example (i : Target) (thr : Thr) (v : ℕ → Xmm Dbl64) (hv : ∀ t < 1000, cfin Dbl64.Finite (v t) ∧ ‖cval Ieee.val (v t)‖ ≤ 1) :
    ∃ A, (letI := i.arith Dbl64; RunsTo Ieee.val Dbl64.Finite 1 (complexFFT (Xmm Dbl64) thr) (fun e x => (e, x)) 1000 .fwd0
        (fun t => cval Ieee.val (v t)) A) ∧
      ‖∑ k ∈ range 1000, A k * (starRingEnd ℂ) (A k) -
          1000 * ∑ j ∈ range 1000, cval Ieee.val (v j) * (starRingEnd ℂ) (cval Ieee.val (v j))‖ ≤
        1000 ^ 3 * (errWeight 1000 / 2 ^ 52 * (1 + errWeight 1000 / 2 ^ 52) + errWeight 1000 / 2 ^ 52) := by
  have hn : ValidLen 1000 := validLen_of_le (by norm_num) (by norm_num)
  obtain ⟨A, hA⟩ := C77_runs (val := Ieee.val) (fin := Dbl64.Finite) (M := 1) i thr hn v hv .fwd0
  have q1 : (1 : ℝ) / 2 ^ 970 ≤ 1 := div_le_one_of_le₀ (one_le_pow₀ (by norm_num)) (by positivity)
  refine ⟨A, hA, ?_⟩
  have h := C101_complex (n := 1000) (M := 1) ieee_binary64 i thr hn q1
    (le_trans (b := 2 ^ 10) (by norm_num) (pow_le_pow_right₀ (by norm_num) (by norm_num)))
    .fwd0 .fwd0 _ _ A A 1 1 rfl (fun j hj => (hv j hj).2) (fun j hj => (hv j hj).2) hA hA
  simp only [Entry.factor, innerProduct] at h
  rw [show ((1 * 1 * ((1000 : ℕ) : ℝ) : ℝ) : ℂ) = 1000 by push_cast; ring] at h
  refine le_trans h (le_of_eq ?_)
  push_cast
  ring

end OTFFT.Props
