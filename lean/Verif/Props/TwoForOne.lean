/-
C98: two real signals transformed by one complex transform.
-/
import Verif.Props.RealExact
import Verif.Props.Agree
import Verif.Spec.TwoForOne

namespace OTFFT.Props
open OTFFT Finset

variable {n : ℕ}

theorem two_for_one_of (hn : 0 < n) (h31 : n ≤ 2 ^ 31) {G R : Entry → (ℕ → ℂ) → (ℕ → ℂ) → Prop} {tolG tolR : ℝ}
    (hG : ∀ e u U, G e u U → ∀ k < n, ‖U k - e.exact n u k‖ ≤ e.factor n * n * tolG)
    (hR : ∀ e u U, R e u U → ∀ k < n, ‖U k - e.exact n u k‖ ≤ e.factor n * n * tolR) : TwoForOne n G R tolG tolR := by
  have H := exact_identities hn
  have conjn : ∀ x : ℂ, ‖(starRingEnd ℂ) x‖ = ‖x‖ := fun x => Complex.norm_conj x
  have lin : ∀ (e : Entry) (u v w : ℕ → ℂ), (∀ j < n, w j = u j + Complex.I * v j) → ∀ k,
      e.exact n w k = e.exact n u k + Complex.I * e.exact n v k := by
    intro e u v w h k
    rw [exact_eq, exact_eq, exact_eq, xdft_congr e.isInv h, xdft_sum, xdft_sum, xdft_sum, mul_sum, mul_sum, mul_sum, mul_sum,
      ← sum_add_distrib]
    exact sum_congr rfl fun j _ => by ring
  refine ⟨?_, ?_⟩
  · intro e a b A B z Z he hA hB hz hd k hk
    have kk : (n - k) % n < n := Nat.mod_lt _ hn
    have herm : ∀ r : ℕ → ℝ, (starRingEnd ℂ) (e.exact n (fun j => (r j : ℂ)) ((n - k) % n)) = e.exact n (fun j => (r j : ℂ)) k := by
      intro r
      have h2 := H.conj e (fun j => (r j : ℂ)) _ (fun _ _ => rfl) k hk
      simp only [Complex.conj_ofReal] at h2
      exact h2
    have eZ : ∀ k, e.exact n z k = e.exact n (fun j => (a j : ℂ)) k + Complex.I * e.exact n (fun j => (b j : ℂ)) k :=
      fun k => lin e _ _ z hd k
    have gA := hR e _ A hA k hk
    have gB := hR e _ B hB k hk
    have gZ := hG e _ Z hz k hk
    have gZ' := hG e _ Z hz _ kk
    rw [← conjn, map_sub, eZ ((n - k) % n), map_add, map_mul, Complex.conj_I, herm a, herm b] at gZ'
    rw [eZ k] at gZ
    generalize e.exact n (fun j => (a j : ℂ)) k = α at *
    generalize e.exact n (fun j => (b j : ℂ)) k = β at *
    generalize (starRingEnd ℂ) (Z ((n - k) % n)) = ζ at *
    refine ⟨?_, ?_, ?_⟩
    · have : 2 * A k - (Z k + ζ) = (2 * (A k - α) - (Z k - (α + Complex.I * β))) - (ζ - (α + -Complex.I * β)) := by ring
      rw [this]
      have h2 : ‖2 * (A k - α)‖ = 2 * ‖A k - α‖ := by rw [norm_mul]; norm_num
      refine le_trans (norm_sub_le _ _) ?_
      have := norm_sub_le (2 * (A k - α)) (Z k - (α + Complex.I * β))
      rw [h2] at this
      linarith
    · have : 2 * Complex.I * B k - (Z k - ζ) =
          (2 * Complex.I * (B k - β) - (Z k - (α + Complex.I * β))) + (ζ - (α + -Complex.I * β)) := by ring
      rw [this]
      have h2 : ‖2 * Complex.I * (B k - β)‖ = 2 * ‖B k - β‖ := by rw [norm_mul, norm_mul, Complex.norm_I]; norm_num
      refine le_trans (norm_add_le _ _) ?_
      have := norm_sub_le (2 * Complex.I * (B k - β)) (Z k - (α + Complex.I * β))
      rw [h2] at this
      linarith
    · have : Z k - (A k + Complex.I * B k) = (Z k - (α + Complex.I * β)) - (A k - α) - Complex.I * (B k - β) := by ring
      rw [this]
      have h2 : ‖Complex.I * (B k - β)‖ = ‖B k - β‖ := by rw [norm_mul, Complex.norm_I, one_mul]
      have h3 := norm_sub_le (Z k - (α + Complex.I * β) - (A k - α)) (Complex.I * (B k - β))
      have h4 := norm_sub_le (Z k - (α + Complex.I * β)) (A k - α)
      rw [h2] at h3
      linarith
  · intro e A B a b Z z δ _ hA hB hz hd j hj
    have gA := hR e A _ hA j hj
    have gB := hR e B _ hB j hj
    have gZ := hG e Z z hz j hj
    have h3 := exact_norm (by omega) h31 e hd j
    rw [← exact_sub, lin e A B _ (fun _ _ => rfl) j] at h3
    generalize e.exact n A j = α at *
    generalize e.exact n B j = β at *
    generalize e.exact n Z j = γ at *
    have key : ‖z j - ((a j : ℂ) + Complex.I * b j)‖ ≤ e.factor n * n * (tolG + δ + 2 * tolR) := by
      have : z j - ((a j : ℂ) + Complex.I * b j) = (z j - γ) + (γ - (α + Complex.I * β)) - (a j - α) - Complex.I * (b j - β) := by ring
      rw [this]
      have h2 : ‖Complex.I * ((b j : ℂ) - β)‖ = ‖(b j : ℂ) - β‖ := by rw [norm_mul, Complex.norm_I, one_mul]
      have h4 := norm_sub_le ((z j - γ) + (γ - (α + Complex.I * β)) - (a j - α)) (Complex.I * ((b j : ℂ) - β))
      have h5 := norm_sub_le ((z j - γ) + (γ - (α + Complex.I * β))) ((a j : ℂ) - α)
      have h6 := norm_add_le (z j - γ) (γ - (α + Complex.I * β))
      rw [h2] at h4
      linarith
    have hre : (z j - ((a j : ℂ) + Complex.I * b j)).re = (z j).re - a j := by simp
    have him : (z j - ((a j : ℂ) + Complex.I * b j)).im = (z j).im - b j := by simp
    exact ⟨by rw [← hre]; exact le_trans (Complex.abs_re_le_norm _) key, by rw [← him]; exact le_trans (Complex.abs_im_le_norm _) key⟩

/-- C98: ComplexFFT against RealFFT, in exact arithmetic. -/
theorem C98_exact (thr thr' : Thr) (hn : RealLen n) (h2 : 2 ≤ n) :
    TwoForOne n (fun e u U => ∀ w x, UserArray w x n u → Computes (complexFFT ℂ thr) n [(e, x)] w x n U) (RealTakes thr' n) 0 0 := by
  have hv := validLen_of_real hn h2
  refine two_for_one_of hn.pos (RealLen.le31 hn) ?_ ?_
  · intro e u U h k hk
    have ok := oneArray_ok n u
    rw [exact_eq, Computes_unique (r' := fun k => scC n e.mode * xdft e.isInv n u k) (by simp [oneArray]) (h _ _ ok)
      (computes_out hv ok [e] _ fun t ht => fftOut_C h2 u ht) k hk, sub_self, norm_zero, mul_zero]
  · intro e v V h k hk; rw [realTakes_exact thr' hn h k hk, sub_self, norm_zero, mul_zero]

/-- C98: Bluestein's transform against RealFFT, in exact arithmetic. -/
theorem C98_bluestein_exact (thr thr' : Thr) (hn : RealLen n) (h29 : n ≤ 2 ^ 29) :
    TwoForOne n (fun e u U => ∀ w x, UserArray w x n u → Computes (bluesteinFFT ℂ thr) n [(e, x)] w x n U) (RealTakes thr' n) 0 0 := by
  refine two_for_one_of hn.pos (RealLen.le31 hn) ?_ ?_
  · intro e u U h k hk
    have ok := oneArray_ok n u
    rw [exact_eq, Computes_unique (r' := fun k => scC n e.mode * xdft e.isInv n u k) (by simp [oneArray]) (h _ _ ok)
      (blue_one thr hn.pos h29 ok e) k hk, sub_self, norm_zero, mul_zero]
  · intro e v V h k hk; rw [realTakes_exact thr' hn h k hk, sub_self, norm_zero, mul_zero]

variable {F : Type} [FArith F] [Inhabited F] {val : F → ℝ} {fin : F → Prop} {M M' : ℝ}

/-- C98: ComplexFFT against RealFFT in double precision; real signals of magnitude at most `M`, complex signal at most `M'` (at most
`√2 M`). -/
theorem C98_complex (hF : Binary64 F val fin) (i i' : Target) (thr thr' : Thr) (hn : RealLen n) (h2 : 2 ≤ n)
    (h0 : 1 / 2 ^ 970 ≤ M) (hM : n * M ≤ 2 ^ 1016) (h0' : 1 / 2 ^ 970 ≤ M') (hM' : n * M' ≤ 2 ^ 1019) :
    TwoForOne n (letI := i.arith F; RunsTo val fin M' (complexFFT (Xmm F) thr) (fun e x => (e, x)) n)
      (letI := i'.arith F; RealRunsTo val fin M (realFFT (Xmm F) thr') (fun e x y => (e, x, y)) n)
      (errWeight n / 2 ^ 52 * M') ((errWeight (n / 2) + 84) / 2 ^ 52 * (3 * M)) :=
  two_for_one_of hn.pos (RealLen.le31 hn) (complex_err hF i thr (validLen_of_real hn h2) h0' hM') (real_err hF i' thr' hn h0 hM)

/-- C98: Bluestein's transform against RealFFT in double precision. -/
theorem C98_bluestein (hF : Binary64 F val fin) (i i' : Target) (thr thr' : Thr) (hn : RealLen n) (h29 : n ≤ 2 ^ 29)
    (h0 : 1 / 2 ^ 970 ≤ M) (hM : n * M ≤ 2 ^ 1016) (h0' : 1 / 2 ^ 970 ≤ M') (hM' : n * (n * (n * M')) ≤ 2 ^ 1013) :
    TwoForOne n (letI := i.arith F; RunsTo val fin M' (bluesteinFFT (Xmm F) thr) (fun e x => (e, x)) n)
      (letI := i'.arith F; RealRunsTo val fin M (realFFT (Xmm F) thr') (fun e x y => (e, x, y)) n)
      ((150 * Nat.clog 2 n + 207) / 2 ^ 52 * (16 * (n * M'))) ((errWeight (n / 2) + 84) / 2 ^ 52 * (3 * M)) :=
  two_for_one_of hn.pos (RealLen.le31 hn) (bluestein_err hF i thr hn.pos h29 h0' hM') (real_err hF i' thr' hn h0 hM)

variable [Libm]

/-- two signals of 1000 IEEE doubles of magnitude at most 1 -/
example (i i' : Target) (thr thr' : Thr) (a b : ℕ → Dbl64) (ha : ∀ t < 1000, (a t).Finite ∧ |Ieee.val (a t)| ≤ 1)
    (hb : ∀ t < 1000, (b t).Finite ∧ |Ieee.val (b t)| ≤ 1) :
    ∃ A B Z, (letI := i'.arith Dbl64; RealRunsTo Ieee.val Dbl64.Finite 1 (realFFT (Xmm Dbl64) thr') (fun e x y => (e, x, y)) 1000 .fwd0
        (fun t => (Ieee.val (a t) : ℂ)) A) ∧
      (letI := i'.arith Dbl64; RealRunsTo Ieee.val Dbl64.Finite 1 (realFFT (Xmm Dbl64) thr') (fun e x y => (e, x, y)) 1000 .fwd0
        (fun t => (Ieee.val (b t) : ℂ)) B) ∧
      (letI := i.arith Dbl64; RunsTo Ieee.val Dbl64.Finite 2 (complexFFT (Xmm Dbl64) thr) (fun e x => (e, x)) 1000 .fwd0
        (fun t => cval Ieee.val ![a t, b t]) Z) ∧
      ∀ k < 1000, ‖2 * A k - (Z k + (starRingEnd ℂ) (Z ((1000 - k) % 1000)))‖ ≤
        1000 * (2 * (errWeight 1000 / 2 ^ 52 * 2 + (errWeight 500 + 84) / 2 ^ 52 * 3)) := by
  have hr : RealLen 1000 := realLen_of_le (m := 500) (by norm_num) (by norm_num)
  have hv : ValidLen 1000 := validLen_of_real hr (by norm_num)
  obtain ⟨A, hA⟩ := C77_runs_real (val := Ieee.val) (fin := Dbl64.Finite) (M := 1) i' thr' hr a ha .fwd0 (by simp)
  obtain ⟨B, hB⟩ := C77_runs_real (val := Ieee.val) (fin := Dbl64.Finite) (M := 1) i' thr' hr b hb .fwd0 (by simp)
  obtain ⟨Z, hZ⟩ := C77_runs (val := Ieee.val) (fin := Dbl64.Finite) (M := 2) i thr hv (fun t => ![a t, b t]) (fun t ht => ⟨⟨(ha t ht).1, (hb t ht).1⟩, by
    refine le_trans (Complex.norm_le_abs_re_add_abs_im _) ?_
    have h1 := (ha t ht).2
    have h2 := (hb t ht).2
    simp only [cval]
    exact le_trans (add_le_add h1 h2) (by norm_num)⟩) .fwd0
  have q : (1 : ℝ) / 2 ^ 970 ≤ 1 := div_le_one_of_le₀ (one_le_pow₀ (by norm_num)) (by positivity)
  have H := C98_complex (n := 1000) (M := 1) (M' := 2) ieee_binary64 i i' thr thr' hr (by norm_num) q
    (le_trans (b := 2 ^ 10) (by norm_num) (pow_le_pow_right₀ (by norm_num) (by norm_num))) (le_trans q (by norm_num))
    (le_trans (b := 2 ^ 11) (by norm_num) (pow_le_pow_right₀ (by norm_num) (by norm_num)))
  refine ⟨A, B, Z, hA, hB, hZ, fun k hk => ?_⟩
  have h := (H.forward .fwd0 (fun t => Ieee.val (a t)) (fun t => Ieee.val (b t)) A B _ Z (by simp) hA hB hZ (fun j _ => by
    apply Complex.ext <;> simp [cval]) k hk).1
  simp only [Entry.factor] at h
  refine le_trans h (le_of_eq ?_)
  push_cast
  ring

end OTFFT.Props
