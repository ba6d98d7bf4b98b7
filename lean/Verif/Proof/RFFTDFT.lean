/-
What the transforms of `RFFT` compute over the complex numbers.
-/
import Verif.Proof.RFFTObj
import Verif.Proof.DFTFacts

namespace OTFFT
open Finset

theorem sum_even_odd (m : ℕ) (f : ℕ → ℂ) :
    ∑ j ∈ range (2 * m), f j = ∑ p ∈ range m, f (2 * p) + ∑ p ∈ range m, f (2 * p + 1) := by
  induction m with
  | zero => simp
  | succ m ih =>
    rw [show 2 * (m + 1) = 2 * m + 1 + 1 by ring, sum_range_succ, sum_range_succ, ih, sum_range_succ, sum_range_succ]
    ring

theorem sum_halves (m : ℕ) (f : ℕ → ℂ) :
    ∑ j ∈ range (2 * m), f j = ∑ p ∈ range m, (f p + f (m + p)) := by
  rw [two_mul, sum_range_add, sum_add_distrib]

theorem om_sq (inv : Bool) {m : ℕ} (hm : 0 < m) : om inv (2 * m) ^ 2 = om inv m :=
  om_pow_div inv (N := 2 * m) (r := m) (m := 2) (by ring) (by omega)

theorem om_half (inv : Bool) {m : ℕ} (hm : 0 < m) : om inv (2 * m) ^ m = -1 := by
  rw [om_pow_div inv (N := 2 * m) (r := 2) (m := m) rfl (by omega)]
  cases inv
  · exact om_two
  · have := om_not false 2
    rw [Bool.not_false] at this
    rw [this, om_two]; norm_num

theorem om_pow_mul_self (inv : Bool) {N : ℕ} (hN : 0 < N) (k : ℕ) : om inv N ^ (k * N) = 1 := by
  rw [mul_comm, pow_mul, om_pow_self inv hN, one_pow]

/-- `conj (w^(p(N-k))) = w^(pk)` -/
theorem om_conj_sub (inv : Bool) {N p k : ℕ} (hN : 0 < N) (hk : k ≤ N) :
    (starRingEnd ℂ) (om inv N ^ (p * (N - k))) = om inv N ^ (p * k) := by
  have h1 : om inv N ^ (p * (N - k)) * om inv N ^ (p * k) = 1 := by
    rw [← pow_add, ← mul_add, Nat.sub_add_cancel hk, om_pow_mul_self inv hN]
  have h2 := om_pow_conj inv N (p * (N - k))
  have h0 : om inv N ^ (p * (N - k)) ≠ 0 := pow_ne_zero _ (om_ne_zero _ _)
  exact mul_left_cancel₀ h0 (h2.trans h1.symm)

/-- transform of a real vector: conjugate symmetry -/
theorem xdft_real_conj (inv : Bool) {N : ℕ} (r : ℕ → ℝ) (hN : 0 < N) {k : ℕ} (hk : k ≤ N) :
    (starRingEnd ℂ) (xdft inv N (fun j => (r j : ℂ)) (N - k)) = xdft inv N (fun j => (r j : ℂ)) k := by
  rw [xdft_sum, xdft_sum, map_sum]
  refine sum_congr rfl fun j _ => ?_
  rw [map_mul, om_conj_sub inv hN hk, Complex.conj_ofReal]

/-- even and odd part -/
theorem xdft_split (inv : Bool) {m : ℕ} (hm : 0 < m) (v : ℕ → ℂ) (t : ℕ) :
    xdft inv (2 * m) v t = xdft inv m (fun p => v (2 * p)) t + om inv (2 * m) ^ t * xdft inv m (fun p => v (2 * p + 1)) t := by
  rw [xdft_sum, xdft_sum, xdft_sum, sum_even_odd, mul_sum, ← om_sq inv hm]
  congr 1
  · refine sum_congr rfl fun p _ => ?_
    rw [← pow_mul]; congr 2; ring
  · refine sum_congr rfl fun p _ => ?_
    rw [← pow_mul, mul_left_comm, ← pow_add]; congr 2; ring

/-- first and second half -/
theorem xdft_halves (inv : Bool) {m : ℕ} (hm : 0 < m) (v : ℕ → ℂ) (t : ℕ) :
    xdft inv (2 * m) v t = ∑ k ∈ range m, (v k + (-1) ^ t * v (m + k)) * om inv (2 * m) ^ (k * t) := by
  rw [xdft_sum, sum_halves]
  refine sum_congr rfl fun k _ => ?_
  rw [add_mul, pow_add, pow_mul (om inv (2 * m)) m t, om_half inv hm]
  ring

theorem rfftZin_C (v : ℕ → ℂ) (p : ℕ) :
    rfftZin ℂ v p = ((v (2 * p)).re : ℂ) + Complex.I * ((v (2 * p + 1)).re : ℂ) := by
  apply Complex.ext <;> simp [rfftZin, CArith.cmk, CArith.re]

theorem rsc_C (mode : ScaleMode) (N : ℕ) (z : ℂ) : rsc mode N z = scC N mode * z := by
  cases mode <;> simp [rsc, scC, scl_C, fdiv, fofNat, fsqrt]

theorem rsc0_C (mode : ScaleMode) (N : ℕ) (d : ℝ) : ((rsc0 ℝ mode N d : ℝ) : ℂ) = scC N mode * d := by
  cases mode
  · simp [rsc0, scC]
  · simp only [rsc0, scC, fdiv, fofNat, fsqrt]; push_cast; ring
  · simp only [rsc0, scC, fdiv, fofNat]; push_cast; ring

theorem ofD_C (d : ℝ) : ofD ℂ d = (d : ℂ) := by
  apply Complex.ext <;> simp [ofD, CArith.cmk, fofNat]

theorem scC_conj (N : ℕ) (mode : ScaleMode) : (starRingEnd ℂ) (scC N mode) = scC N mode := by
  cases mode
  · simp [scC]
  · exact Complex.conj_ofReal _
  · exact Complex.conj_ofReal _

/-- the forward transform of length `2m`: scaled DFT of the real parts -/
theorem rfftFwdOut_C {thr : Thr} {mode : ScaleMode} {m : ℕ} (hm : 2 ≤ m) (v : ℕ → ℂ) {t : ℕ} (ht : t < 2 * m) :
    rfftFwdOut ℂ thr mode m v t = scC (2 * m) mode * Spec.dft (2 * m) (fun j => ((v j).re : ℂ)) t := by
  have hm0 : 0 < m := by omega
  rw [Spec.dft_eq]
  set r : ℕ → ℝ := fun j => (v j).re with hr
  set X := xdft false (2 * m) (fun j => (r j : ℂ)) with hX
  set E := xdft false m (fun p => (r (2 * p) : ℂ)) with hE
  set O := xdft false m (fun p => (r (2 * p + 1) : ℂ)) with hO
  set ω := om false (2 * m) with hω
  have split : ∀ t, X t = E t + ω ^ t * O t := fun t => xdft_split false hm0 _ t
  have Xconj : ∀ k ≤ 2 * m, (starRingEnd ℂ) (X (2 * m - k)) = X k := fun k hk => xdft_real_conj false r (by omega) hk
  have hω1 : ω ^ m = -1 := om_half false hm0
  -- the half-length transform
  set Z := fftOut ℂ thr false .scale_1 m (rfftZin ℂ v) with hZ
  have Zt : ∀ t < m, Z t = E t + Complex.I * O t := by
    intro t ht
    rw [hZ, fftOut_C hm _ ht, scC, one_mul, xdft_congr false (v := fun p => 1 * (r (2 * p) : ℂ) + Complex.I * (r (2 * p + 1) : ℂ))
      (fun p _ => by rw [rfftZin_C, one_mul]), xdft_add, one_mul]
  have Zc : ∀ k, 1 ≤ k → k ≤ m → (starRingEnd ℂ) (Z (m - k)) = E k - Complex.I * O k := by
    intro k h1 hk
    rw [Zt _ (by omega), map_add, map_mul, Complex.conj_I, xdft_real_conj false (fun p => r (2 * p)) hm0 hk,
      xdft_real_conj false (fun p => r (2 * p + 1)) hm0 hk]
    ring
  have hmid : ∀ t, 1 ≤ t → t < m → rfftMid mode m (rfftTab ℂ (2 * m)) Z t = scC (2 * m) mode * X t := by
    intro t h1 ht
    have I2 := Complex.I_mul_I
    unfold rfftMid
    split
    · rw [rsc_C, rfftTab_C (by omega) (by omega)]
      simp only [subpz_C, mulpz_C, cnjpz_C]
      rw [Zc t h1 ht.le, Zt t ht, split, rfftW]
      linear_combination (-scC (2 * m) mode * ω ^ t * O t) * I2
    · rw [rsc_C, rfftTab_C (by omega) (by omega)]
      simp only [subpz_C, mulpz_C, cnjpz_C, addpz_C]
      have e : t = m - (m - t) := by omega
      have hc : (starRingEnd ℂ) (Z t) = E (m - t) - Complex.I * O (m - t) := by
        conv_lhs => rw [e]
        exact Zc _ (by omega) (by omega)
      rw [hc, Zt (m - t) (by omega), ← Xconj t (by omega)]
      congr 2
      have em : 2 * m - t = m + (m - t) := by omega
      rw [em, split, pow_add, hω1, rfftW]
      have hEp : ∀ (u : ℕ → ℂ) k, xdft false m u (m + k) = xdft false m u k := by
        intro u k
        rw [xdft_sum, xdft_sum]
        refine sum_congr rfl fun j _ => ?_
        rw [mul_add, pow_add, om_pow_mul_self false hm0, one_mul]
      rw [hE, hO, hEp, hEp]
      linear_combination (ω ^ (m - t) * xdft false m (fun p => (r (2 * p + 1) : ℂ)) (m - t)) * I2
  have E0 : (E 0) = ((E 0).re : ℂ) := by
    have := xdft_real_conj false (fun p => r (2 * p)) hm0 (k := 0) (by omega)
    have h2 : xdft false m (fun p => (r (2 * p) : ℂ)) (m - 0) = E 0 := by
      rw [hE, xdft_sum, xdft_sum]
      refine sum_congr rfl fun j _ => ?_
      rw [Nat.sub_zero, om_pow_mul_self false hm0, mul_zero, pow_zero]
    rw [h2] at this
    exact (Complex.conj_eq_iff_re.1 this).symm
  have O0 : (O 0) = ((O 0).re : ℂ) := by
    have := xdft_real_conj false (fun p => r (2 * p + 1)) hm0 (k := 0) (by omega)
    have h2 : xdft false m (fun p => (r (2 * p + 1) : ℂ)) (m - 0) = O 0 := by
      rw [hO, xdft_sum, xdft_sum]
      refine sum_congr rfl fun j _ => ?_
      rw [Nat.sub_zero, om_pow_mul_self false hm0, mul_zero, pow_zero]
    rw [h2] at this
    exact (Complex.conj_eq_iff_re.1 this).symm
  have Z0 : Z 0 = ⟨(E 0).re, (O 0).re⟩ := by
    rw [Zt 0 hm0, E0, O0]
    apply Complex.ext <;> simp
  unfold rfftFwdOut rfftPostOut
  rw [← hZ]
  by_cases t0 : t = 0
  · subst t0
    rw [if_pos rfl, ofD_C, rsc0_C, Z0]
    congr 1
    rw [split, pow_zero, one_mul]
    conv_rhs => rw [E0, O0]
    simp [CArith.re, CArith.im, fadd]
  rw [if_neg t0]
  by_cases tm : t < m
  · rw [if_pos tm]; exact hmid t (by omega) tm
  rw [if_neg tm]
  by_cases tm' : t = m
  · subst tm'
    rw [if_pos rfl, ofD_C, rsc0_C, Z0]
    congr 1
    rw [split, hω1]
    have e1 : E t = E 0 := by
      rw [hE, xdft_sum, xdft_sum]
      refine sum_congr rfl fun j _ => ?_
      rw [om_pow_mul_self false hm0, mul_zero, pow_zero]
    have e2 : O t = O 0 := by
      rw [hO, xdft_sum, xdft_sum]
      refine sum_congr rfl fun j _ => ?_
      rw [om_pow_mul_self false hm0, mul_zero, pow_zero]
    rw [e1, e2]
    conv_rhs => rw [E0, O0]
    simp [CArith.re, CArith.im, fsub]
    ring
  rw [if_neg tm', hmid _ (by omega) (by omega), cnjpz_C, map_mul, scC_conj, Xconj t (by omega)]

/-- inverse DFT of a conjugate symmetric vector is real -/
theorem xdft_herm_real (inv : Bool) {n : ℕ} (hn : 0 < n) {X : ℕ → ℂ}
    (h0 : (X 0).im = 0) (hX : ∀ k, 0 < k → k < n → X (n - k) = (starRingEnd ℂ) (X k)) (t : ℕ) : (xdft inv n X t).im = 0 := by
  rw [← Complex.conj_eq_iff_im, xdft_sum, map_sum]
  obtain ⟨n, rfl⟩ : ∃ m, n = m + 1 := ⟨n - 1, by omega⟩
  rw [sum_range_succ', sum_range_succ']
  congr 1
  · refine sum_bij' (fun k _ => n - 1 - k) (fun k _ => n - 1 - k) ?_ ?_ ?_ ?_ ?_
    · intro k hk; have := mem_range.1 hk; exact mem_range.2 (by omega)
    · intro k hk; have := mem_range.1 hk; exact mem_range.2 (by omega)
    · intro k hk; have := mem_range.1 hk; omega
    · intro k hk; have := mem_range.1 hk; omega
    · intro k hk
      have hk := mem_range.1 hk
      have e : n - 1 - k + 1 = n + 1 - (k + 1) := by omega
      rw [map_mul, e, hX (k + 1) (by omega) (by omega)]
      congr 1
      have e2 : k + 1 = n + 1 - (n + 1 - (k + 1)) := by omega
      conv_lhs => rw [e2, mul_comm]
      rw [om_conj_sub inv (by omega) (by omega), mul_comm]
  · simp [Complex.conj_eq_iff_im.2 h0]

theorem rscInv_C (mode : ScaleMode) (N : ℕ) (z : ℂ) : rscInv mode N z =
    (match mode with | .scale_1 => 2 | .scale_unitary => ((2 / Real.sqrt N : ℝ) : ℂ) | .scale_length => 1) * z := by
  cases mode <;> simp [rscInv, scl_C, fdiv, fofNat, fsqrt]

/-- the inverse transform of length `2m` of the first `m+1` entries of a conjugate symmetric vector -/
theorem rfftInvOut_C {thr : Thr} {mode : ScaleMode} {m : ℕ} (hm : 2 ≤ m) {X : ℕ → ℂ}
    (h0 : (X 0).im = 0) (hX : ∀ k, 0 < k → k < 2 * m → X (2 * m - k) = (starRingEnd ℂ) (X k)) {t : ℕ} (ht : t < 2 * m) :
    rfftInvOut ℂ thr mode m X t = scC (2 * m) mode * Spec.idft (2 * m) X t := by
  have hm0 : 0 < m := by omega
  rw [Spec.idft_eq]
  set ω := om true (2 * m) with hω
  have hsq : ω ^ 2 = om true m := om_sq true hm0
  have hreal := xdft_herm_real true (n := 2 * m) (by omega) h0 hX
  set x := xdft true (2 * m) X with hx
  -- what is fed to the half-length transform
  have pre : ∀ k < m, rfftPreOut mode m (rfftTab ℂ (2 * m)) X k =
      (match mode with | .scale_1 => 2 | .scale_unitary => ((2 / Real.sqrt ((2 * m : ℕ) : ℝ) : ℝ) : ℂ) | .scale_length => 1) / 2 *
        ((X k + X (m + k)) + Complex.I * ((X k - X (m + k)) * ω ^ k)) := by
    intro k hk
    unfold rfftPreOut
    rw [rscInv_C, rfftTab_C (by omega) (by omega)]
    simp only [subpz_C, mulpz_C, cnjpz_C]
    have e1 : X (m - k) = (starRingEnd ℂ) (X (m + k)) := by
      have := hX (m + k) (by omega) (by omega)
      rwa [show 2 * m - (m + k) = m - k by omega] at this
    have e2 : (starRingEnd ℂ) (rfftW (2 * m) k) = (1 - Complex.I * ω ^ k) / 2 := by
      have h2 : (starRingEnd ℂ) (2 : ℂ) = 2 := Complex.conj_ofNat 2
      unfold rfftW
      rw [map_div₀, map_add, map_mul, map_pow, om_conj, Complex.conj_I, map_one, h2]
      show (1 + -Complex.I * ω ^ k) / 2 = _
      ring
    simp only [map_sub, map_mul, Complex.conj_conj, e1, e2]
    ring
  have W : ∀ p < m, fftOut ℂ thr true (rfftInvMode mode) m (rfftPreOut mode m (rfftTab ℂ (2 * m)) X) p =
      scC (2 * m) mode * (x (2 * p) + Complex.I * x (2 * p + 1)) := by
    intro p hp
    rw [fftOut_C hm _ hp, xdft_congr true pre, xdft_smul]
    have e1 : xdft true m (fun k => (X k + X (m + k)) + Complex.I * ((X k - X (m + k)) * ω ^ k)) p =
        x (2 * p) + Complex.I * x (2 * p + 1) := by
      rw [hx, xdft_halves true hm0, xdft_halves true hm0, xdft_sum, mul_sum, ← sum_add_distrib, ← hsq]
      refine sum_congr rfl fun k _ => ?_
      rw [pow_mul (-1 : ℂ) 2 p, pow_succ (-1 : ℂ) (2 * p), pow_mul (-1 : ℂ) 2 p]
      have : (-1 : ℂ) ^ 2 = 1 := by norm_num
      rw [this, one_pow, ← pow_mul, show k * (2 * p + 1) = 2 * (k * p) + k by ring, show k * (2 * p) = 2 * (k * p) by ring, pow_add ω]
      ring
    rw [e1, ← mul_assoc]
    congr 1
    have hmC : (m : ℂ) ≠ 0 := by exact_mod_cast (by omega : m ≠ 0)
    cases mode
    · simp [scC, rfftInvMode]
    · simp only [scC, rfftInvMode]; push_cast; ring
    · simp only [scC, rfftInvMode]; push_cast; field_simp
  have scre : (scC (2 * m) mode).im = 0 := Complex.conj_eq_iff_im.1 (scC_conj _ _)
  unfold rfftInvOut unpackD
  have hx2 : ∀ t, x t = ((x t).re : ℂ) := fun t => (Complex.conj_eq_iff_re.1 (Complex.conj_eq_iff_im.2 (hreal t))).symm
  have scr : scC (2 * m) mode = ((scC (2 * m) mode).re : ℂ) := (Complex.conj_eq_iff_re.1 (scC_conj _ _)).symm
  rcases Nat.mod_two_eq_zero_or_one t with h | h
  · rw [if_pos h, W _ (by omega), show 2 * (t / 2) = t by omega, ofD_C, hx2 t, hx2 (t + 1), scr]
    simp [CArith.re]
  · rw [if_neg (by omega), W _ (by omega), show 2 * (t / 2) + 1 = t by omega, ofD_C, hx2 t, hx2 (2 * (t / 2)), scr]
    simp [CArith.im]

variable {n : ℕ}

/-- the value of `rfftOut` for forward transforms -/
theorem rfftOut_fwd (thr : Thr) {e : Entry} (he : e.isInv = false) (hn : RealLen n) (v : ℕ → ℂ) {t : ℕ} (ht : t < n) :
    rfftOut ℂ thr e n v t = scC n e.mode * Spec.dft n (fun j => ((v j).re : ℂ)) t := by
  unfold rfftOut
  rcases hn with rfl | ⟨m, rfl, hm, hm31⟩
  · have : t = 0 := by omega
    subst this
    rw [if_pos rfl, ofD_C]
    cases e <;> simp [Entry.isInv] at he <;> simp [scC, Entry.mode, Spec.dft, CArith.re]
  · have h2 := hm.two
    rw [if_neg (by omega), he, show 2 * m / 2 = m by omega]
    exact rfftFwdOut_C h2 v ht

theorem hermitian_facts {X : ℕ → ℂ} (h : Spec.Hermitian n X) (hn : 0 < n) :
    (X 0).im = 0 ∧ ∀ k, 0 < k → k < n → X (n - k) = (starRingEnd ℂ) (X k) := by
  refine ⟨?_, fun k h0 hk => ?_⟩
  · have := h 0 hn
    rw [Nat.sub_zero, Nat.mod_self] at this
    exact Complex.conj_eq_iff_im.1 this.symm
  · have := h k hk
    rwa [Nat.mod_eq_of_lt (by omega)] at this

theorem rfftOut_inv (thr : Thr) {e : Entry} (he : e.isInv = true) (hn : RealLen n) {X : ℕ → ℂ} (hX : Spec.Hermitian n X)
    {t : ℕ} (ht : t < n) : rfftOut ℂ thr e n X t = scC n e.mode * Spec.idft n X t := by
  obtain ⟨h0, hk⟩ := hermitian_facts hX (by omega)
  unfold rfftOut
  rcases hn with rfl | ⟨m, rfl, hm, hm31⟩
  · have : t = 0 := by omega
    subst this
    rw [if_pos rfl, ofD_C]
    have hr : ((X 0).re : ℂ) = X 0 := Complex.conj_eq_iff_re.1 (Complex.conj_eq_iff_im.2 h0)
    cases e <;> simp [Entry.isInv] at he <;> simp [scC, Entry.mode, Spec.idft, CArith.re, hr]
  · have h2 := hm.two
    rw [if_neg (by omega), he, show 2 * m / 2 = m by omega]
    exact rfftInvOut_C h2 h0 hk ht

theorem hermitian_dft (c : ℂ) (hc : (starRingEnd ℂ) c = c) (r : ℕ → ℝ) (hn : 0 < n) :
    Spec.Hermitian n (fun k => c * Spec.dft n (Spec.ofReal r) k) := by
  intro k hk
  show c * _ = (starRingEnd ℂ) (c * _)
  rw [map_mul, hc, Spec.dft_eq]
  congr 1
  have hp : xdft false n (Spec.ofReal r) ((n - k) % n) = xdft false n (Spec.ofReal r) (n - k) := by
    rcases Nat.eq_zero_or_pos k with rfl | h0
    · rw [Nat.sub_zero, Nat.mod_self, xdft_sum, xdft_sum]
      refine Finset.sum_congr rfl fun j _ => ?_
      rw [om_pow_mul_self false hn, mul_zero, pow_zero]
    · rw [Nat.mod_eq_of_lt (by omega)]
  rw [hp]
  have := xdft_real_conj false r hn (k := k) hk.le
  rw [← Complex.conj_conj (xdft false n (Spec.ofReal r) (n - k))]
  exact congrArg _ this

end OTFFT
