/-
C92: how transforms of length `n` and `m * n` are related.
-/
import Verif.Props.NearIdentities
import Verif.Proof.Resample
import Verif.Spec.Resample

namespace OTFFT.Props
open OTFFT Finset

variable {n m : ℕ}

/-- accurate transforms of length `n` and `m * n` are related up to rounding -/
theorem resample_of (hn : 0 < n) (hm : 0 < m) (h31 : n ≤ 2 ^ 31) {Gs Gl : Entry → (ℕ → ℂ) → (ℕ → ℂ) → Prop} {tolS tolL : ℝ}
    (hS : ∀ e u U, Gs e u U → ∀ k < n, ‖U k - e.exact n u k‖ ≤ e.factor n * n * tolS)
    (hL : ∀ e v V, Gl e v V → ∀ k < m * n, ‖V k - e.exact (m * n) v k‖ ≤ e.factor (m * n) * (m * n) * tolL) :
    Resample n m Gs Gl tolS tolL := by
  have cnt : ∀ {e : Entry} (c : ℕ) {A B : ℂ} {X : ℝ}, 0 ≤ (e.factor c : ℝ) → ‖A - B‖ ≤ X →
      ‖(e.factor c : ℂ) * A - e.factor c * B‖ ≤ e.factor c * X := by
    intro e c A B X h0 h
    rw [← mul_sub, norm_mul, Complex.norm_real, Real.norm_of_nonneg h0]
    exact mul_le_mul_of_nonneg_left h h0
  -- the general step: two approximations of the same number
  have step : ∀ {A B A' B' : ℂ} {x y z : ℝ}, ‖A - A'‖ ≤ x → ‖B - B'‖ ≤ y → A' = B' → x + y = z → ‖A - B‖ ≤ z := by
    intro A B A' B' x y z h1 h2 he hz
    subst he
    calc ‖A - B‖ = ‖(A - A') - (B - A')‖ := by ring_nf
      _ ≤ _ := norm_sub_le _ _
      _ ≤ _ := by linarith
  have fS : ∀ e : Entry, 0 ≤ (e.factor n : ℝ) := fun e => factor_nonneg e
  have fL : ∀ e : Entry, 0 ≤ (e.factor (m * n) : ℝ) := fun e => factor_nonneg e
  have big : ∀ {k : ℕ}, k < n → m * k < m * n := fun h => Nat.mul_lt_mul_of_pos_left h hm
  have congrL : ∀ {e : Entry} {v x : ℕ → ℂ}, (∀ j < m * n, v j = x j) → ∀ k, e.exact (m * n) v k = e.exact (m * n) x k := by
    intro e v x h k
    rw [exact_eq, exact_eq, xdft_congr e.isInv h]
  have congrS : ∀ {e : Entry} {v x : ℕ → ℂ}, (∀ j < n, v j = x j) → ∀ k, e.exact n v k = e.exact n x k := by
    intro e v x h k
    rw [exact_eq, exact_eq, xdft_congr e.isInv h]
  refine ⟨?_, ?_, ?_, ?_, ?_, ?_⟩
  · intro e u U v V hu hv hd k hk
    refine step (cnt n (fS e) (hL e v V hv _ (big hk))) (cnt (m * n) (fL e) (hS e u U hu k hk)) ?_ (by ring)
    rw [congrL hd, exact_eq, exact_eq, xdft_pad e.isInv hn hm, scC_factor, scC_factor]
    ring
  · intro e u U v V hu hv hd k hk
    have h1 := cnt n (fS e) (hL e v V hv k hk)
    rw [congrL hd, exact_eq, xdft_tile e.isInv hn hm, scC_factor] at h1
    split
    · rename_i h
      obtain ⟨q, rfl⟩ := h
      have hq : q < n := Nat.lt_of_mul_lt_mul_left hk
      rw [if_pos (Nat.dvd_mul_right m q), Nat.mul_div_cancel_left _ hm] at h1
      rw [Nat.mul_div_cancel_left _ hm]
      have h2 := cnt (m * n) (fL e) (hS e u U hu q hq)
      have h3 := mul_le_mul_of_nonneg_left h2 (Nat.cast_nonneg (α := ℝ) m)
      rw [← Complex.norm_natCast (n := m), ← norm_mul, mul_sub, Complex.norm_natCast] at h3
      refine step h1 (B' := m * (e.factor (m * n) * e.exact n u q)) (y := m * (e.factor (m * n) * (e.factor n * n * tolS))) ?_ ?_ (by ring)
      · refine le_trans (le_of_eq ?_) h3
        congr 1; ring
      · rw [exact_eq, scC_factor]; ring
    · rename_i h
      rw [if_neg h] at h1
      have h0 : 0 ≤ e.factor n * n * tolS := le_trans (norm_nonneg _) (hS e u U hu 0 hn)
      have h3 := mul_nonneg (Nat.cast_nonneg (α := ℝ) m) (mul_nonneg (fL e) h0)
      simp only [mul_zero] at h1
      refine le_trans h1 ?_
      nlinarith [h3]
  · intro e u U v V hu hv hd k hk
    refine step (cnt n (fS e) (hL e v V hv k hk)) (cnt (m * n) (fL e) (hS e u U hu _ (Nat.mod_lt _ hn))) ?_ (by ring)
    rw [congrL hd, exact_eq, exact_eq, xdft_stretch e.isInv hn hm, scC_factor, scC_factor]
    ring
  · intro e u U v V hu hv hd k hk
    have h2 := cnt (m * n) (fL e) (hS e u U hu k hk)
    have h3 := mul_le_mul_of_nonneg_left h2 (Nat.cast_nonneg (α := ℝ) m)
    rw [← Complex.norm_natCast (n := m), ← norm_mul, mul_sub, Complex.norm_natCast] at h3
    have h4 : ‖∑ i ∈ range m, V (k + n * i) - ∑ i ∈ range m, e.exact (m * n) v (k + n * i)‖ ≤
        m * (e.factor (m * n) * (m * n) * tolL) := by
      rw [← sum_sub_distrib]
      refine le_trans (norm_sum_le_of_le _ fun i hi => hL e v V hv _ ?_) (by rw [sum_const, Finset.card_range, nsmul_eq_mul])
      have := mem_range.1 hi
      calc k + n * i < n + n * i := by omega
        _ = n * (i + 1) := by ring
        _ ≤ n * m := Nat.mul_le_mul_left n this
        _ = m * n := Nat.mul_comm _ _
    refine step (A' := m * (e.factor (m * n) * e.exact n u k)) (x := m * (e.factor (m * n) * (e.factor n * n * tolS))) ?_
      (cnt n (fS e) h4) ?_ (by ring)
    · refine le_trans (le_of_eq ?_) h3
      congr 1; ring
    · rw [congrS hd, exact_eq, scC_factor]
      simp only [exact_eq, ← mul_sum]
      rw [xdft_decimate e.isInv hn hm, scC_factor]
      ring
  · intro e u U v V δ hu hv hd k hk
    have h1 := hS e u U hu k hk
    have h2 := exact_norm hn h31 e hd k
    rw [← exact_sub] at h2
    have h3 : ‖U k - e.exact n (fun j => ∑ i ∈ range m, v (j + n * i)) k‖ ≤ e.factor n * n * tolS + e.factor n * (n * δ) := by
      calc _ = ‖(U k - e.exact n u k) + (e.exact n u k - e.exact n (fun j => ∑ i ∈ range m, v (j + n * i)) k)‖ := by rw [sub_add_sub_cancel]
        _ ≤ _ := norm_add_le _ _
        _ ≤ _ := by linarith
    refine step (cnt (m * n) (fL e) h3) (cnt n (fS e) (hL e v V hv _ (big hk))) ?_ (by ring)
    rw [exact_eq, exact_eq, xdft_fold e.isInv hn hm, scC_factor, scC_factor]
    ring
  · intro e u U v V hu hv hd k hk
    have h3 : ‖∑ r ∈ range m, turn (m * n) (e.sign * (r * k)) * U r (k % n) -
        ∑ r ∈ range m, turn (m * n) (e.sign * (r * k)) * e.exact n (u r) (k % n)‖ ≤ m * (e.factor n * n * tolS) := by
      rw [← sum_sub_distrib]
      refine le_trans (norm_sum_le_of_le _ fun r hr => ?_) (le_of_eq (by rw [sum_const, Finset.card_range, nsmul_eq_mul]))
      rw [← mul_sub, norm_mul, turn_norm, one_mul]
      exact hS e _ _ (hu r (mem_range.1 hr)) _ (Nat.mod_lt _ hn)
    refine step (cnt n (fS e) (hL e v V hv k hk)) (cnt (m * n) (fL e) h3) ?_ (by ring)
    rw [exact_eq, xdft_parts e.isInv hn hm, scC_factor, mul_sum, mul_sum, mul_sum]
    refine sum_congr rfl fun r hr => ?_
    rw [congrS (hd r (mem_range.1 hr)), exact_eq, scC_factor, om_turn]
    ring

/-- C92: ComplexFFT of length `n` and `m * n`, in exact arithmetic. -/
theorem C92_complex_exact (thr : Thr) (hn : ValidLen n) (hm : 0 < m) (hN : ValidLen (m * n)) :
    Resample n m (fun e u U => ∀ w x, UserArray w x n u → Computes (complexFFT ℂ thr) n [(e, x)] w x n U)
      (fun e v V => ∀ w x, UserArray w x (m * n) v → Computes (complexFFT ℂ thr) (m * n) [(e, x)] w x (m * n) V) 0 0 := by
  have key : ∀ {n} (hn : ValidLen n) (e : Entry) (u U : ℕ → ℂ),
      (∀ w x, UserArray w x n u → Computes (complexFFT ℂ thr) n [(e, x)] w x n U) → ∀ k < n, U k = e.exact n u k := by
    intro n hn e u U h k hk
    have ok := oneArray_ok n u
    have h2 := hn.two
    rw [exact_eq]
    exact Computes_unique (r' := fun k => scC n e.mode * xdft e.isInv n u k) (by simp [oneArray]) (h _ _ ok)
      (computes_out hn ok [e] _ fun t ht => fftOut_C h2 u ht) k hk
  have h2 := hn.two
  refine resample_of (by omega) hm hn.int.le ?_ ?_
  · intro e u U h k hk; rw [key hn e u U h k hk, sub_self, norm_zero, mul_zero]
  · intro e v V h k hk; rw [key hN e v V h k hk, sub_self, norm_zero, mul_zero]

/-- C92: Bluestein's transform of length `n` and `m * n`, in exact arithmetic. -/
theorem C92_bluestein_exact (thr : Thr) (hn : 0 < n) (hm : 0 < m) (hN : m * n ≤ 2 ^ 29) :
    Resample n m (fun e u U => ∀ w x, UserArray w x n u → Computes (bluesteinFFT ℂ thr) n [(e, x)] w x n U)
      (fun e v V => ∀ w x, UserArray w x (m * n) v → Computes (bluesteinFFT ℂ thr) (m * n) [(e, x)] w x (m * n) V) 0 0 := by
  have key : ∀ {n}, 1 ≤ n → n ≤ 2 ^ 29 → ∀ (e : Entry) (u U : ℕ → ℂ),
      (∀ w x, UserArray w x n u → Computes (bluesteinFFT ℂ thr) n [(e, x)] w x n U) → ∀ k < n, U k = e.exact n u k := by
    intro n h1 h29 e u U h k hk
    have ok := oneArray_ok n u
    rw [exact_eq]
    exact Computes_unique (r' := fun k => scC n e.mode * xdft e.isInv n u k) (by simp [oneArray]) (h _ _ ok)
      (blue_one thr h1 h29 ok e) k hk
  have hle : n ≤ m * n := Nat.le_mul_of_pos_left n hm
  refine resample_of hn hm (by omega) ?_ ?_
  · intro e u U h k hk; rw [key hn (by omega) e u U h k hk, sub_self, norm_zero, mul_zero]
  · intro e v V h k hk; rw [key (by omega) hN e v V h k hk, sub_self, norm_zero, mul_zero]

variable {F : Type} [FArith F] [Inhabited F] {val : F → ℝ} {fin : F → Prop} {M : ℝ}

/-- C92: ComplexFFT in double precision. -/
theorem C92_complex (hF : Binary64 F val fin) (i : Target) (thr : Thr) (hn : ValidLen n) (hm : 0 < m) (hN : ValidLen (m * n))
    (h0 : 1 / 2 ^ 970 ≤ M) (hM : m * n * M ≤ 2 ^ 1019) :
    letI := i.arith F
    Resample n m (RunsTo val fin M (complexFFT (Xmm F) thr) (fun e x => (e, x)) n)
      (RunsTo val fin M (complexFFT (Xmm F) thr) (fun e x => (e, x)) (m * n))
      (errWeight n / 2 ^ 52 * M) (errWeight (m * n) / 2 ^ 52 * M) := by
  letI := i.arith F
  have h2 := hn.two
  have hM0 : 0 ≤ M := le_trans (by positivity) h0
  have h1 : (1 : ℝ) ≤ m := by exact_mod_cast hm
  refine resample_of (by omega) hm hn.int.le (complex_err hF i thr hn h0 (le_trans ?_ hM)) fun e v V h k hk => ?_
  · have : (n : ℝ) * M ≤ m * (n * M) := le_mul_of_one_le_left (mul_nonneg (Nat.cast_nonneg _) hM0) h1
    linarith
  · have := complex_err hF i thr hN h0 (by push_cast; exact hM) e v V h k hk
    push_cast at this
    exact this

/-- C92: Bluestein's transform in double precision. -/
theorem C92_bluestein (hF : Binary64 F val fin) (i : Target) (thr : Thr) (hn : 0 < n) (hm : 0 < m) (hN : m * n ≤ 2 ^ 29)
    (h0 : 1 / 2 ^ 970 ≤ M) (hM : (m * n : ℕ) * ((m * n : ℕ) * ((m * n : ℕ) * M)) ≤ 2 ^ 1013) :
    letI := i.arith F
    Resample n m (RunsTo val fin M (bluesteinFFT (Xmm F) thr) (fun e x => (e, x)) n)
      (RunsTo val fin M (bluesteinFFT (Xmm F) thr) (fun e x => (e, x)) (m * n))
      ((150 * Nat.clog 2 n + 207) / 2 ^ 52 * (16 * (n * M)))
      ((150 * Nat.clog 2 (m * n) + 207) / 2 ^ 52 * (16 * (m * n * M))) := by
  letI := i.arith F
  have hM0 : 0 ≤ M := le_trans (by positivity) h0
  have hle : n ≤ m * n := Nat.le_mul_of_pos_left n hm
  have hle' : (n : ℝ) ≤ (m * n : ℕ) := by exact_mod_cast hle
  have hn0 : (0 : ℝ) ≤ n := Nat.cast_nonneg _
  refine resample_of hn hm (by omega) (bluestein_err hF i thr hn (by omega) h0 (le_trans ?_ hM)) fun e v V h k hk => ?_
  · exact mul_le_mul hle' (mul_le_mul hle' (mul_le_mul_of_nonneg_right hle' hM0) (by positivity) (by positivity)) (by positivity)
      (by positivity)
  · have := bluestein_err hF i thr (by omega) hN h0 hM e v V h k hk
    push_cast at this
    exact this

/-- C92: Bluestein's transform of the (for example odd) length `n` and ComplexFFT of length `m * n`, in double precision. -/
theorem C92_mixed (hF : Binary64 F val fin) (i : Target) (thr : Thr) (hn : 0 < n) (hm : 0 < m) (h29 : n ≤ 2 ^ 29)
    (hN : ValidLen (m * n)) (h0 : 1 / 2 ^ 970 ≤ M) (hM : n * (n * (n * M)) ≤ 2 ^ 1013) (hM' : m * n * M ≤ 2 ^ 1019) :
    letI := i.arith F
    Resample n m (RunsTo val fin M (bluesteinFFT (Xmm F) thr) (fun e x => (e, x)) n)
      (RunsTo val fin M (complexFFT (Xmm F) thr) (fun e x => (e, x)) (m * n))
      ((150 * Nat.clog 2 n + 207) / 2 ^ 52 * (16 * (n * M))) (errWeight (m * n) / 2 ^ 52 * M) := by
  letI := i.arith F
  refine resample_of hn hm (by omega) (bluestein_err hF i thr hn h29 h0 hM) fun e v V h k hk => ?_
  have := complex_err hF i thr hN h0 (by push_cast; exact hM') e v V h k hk
  push_cast at this
  exact this

/-- C92: RealFFT in double precision. -/
theorem C92_real (hF : Binary64 F val fin) (i : Target) (thr : Thr) (hn : RealLen n) (hm : 0 < m) (hN : RealLen (m * n))
    (h0 : 1 / 2 ^ 970 ≤ M) (hM : m * n * M ≤ 2 ^ 1016) :
    letI := i.arith F
    Resample n m (RealRunsTo val fin M (realFFT (Xmm F) thr) (fun e x y => (e, x, y)) n)
      (RealRunsTo val fin M (realFFT (Xmm F) thr) (fun e x y => (e, x, y)) (m * n))
      ((errWeight (n / 2) + 84) / 2 ^ 52 * (3 * M)) ((errWeight (m * n / 2) + 84) / 2 ^ 52 * (3 * M)) := by
  letI := i.arith F
  have hM0 : 0 ≤ M := le_trans (by positivity) h0
  have h1 : (1 : ℝ) ≤ m := by exact_mod_cast hm
  refine resample_of hn.pos hm (RealLen.le31 hn) (real_err hF i thr hn h0 (le_trans ?_ hM)) fun e v V h k hk => ?_
  · have : (n : ℝ) * M ≤ m * (n * M) := le_mul_of_one_le_left (mul_nonneg (Nat.cast_nonneg _) hM0) h1
    linarith
  · have := real_err hF i thr hN h0 (by push_cast; exact hM) e v V h k hk
    push_cast at this
    exact this

variable [Libm]

/-- a signal of 6 IEEE doubles of magnitude at most 1, with 18 zeros appended: every fourth of the 24 bins is one of the 6 -/
example (i : Target) (thr : Thr) (v : ℕ → Xmm Dbl64)
    (hv : ∀ t < 6, cfin Dbl64.Finite (v t) ∧ ‖cval Ieee.val (v t)‖ ≤ 1) :
    letI := i.arith Dbl64
    ∃ U V, RunsTo Ieee.val Dbl64.Finite 1 (complexFFT (Xmm Dbl64) thr) (fun e x => (e, x)) 6 .fwd0 (fun t => cval Ieee.val (v t)) U ∧
      RunsTo Ieee.val Dbl64.Finite 1 (complexFFT (Xmm Dbl64) thr) (fun e x => (e, x)) 24 .fwd0
        (fun t => cval Ieee.val (if t < 6 then v t else ![fofNat 0, fofNat 0])) V ∧
      ∀ k < 6, ‖V (4 * k) - U k‖ ≤ (24 * errWeight 24 + 6 * errWeight 6) / 2 ^ 52 := by
  letI := i.arith Dbl64
  have hn : ValidLen 6 := validLen_of_le (by norm_num) (by norm_num)
  have hN : ValidLen 24 := validLen_of_le (by norm_num) (by norm_num)
  obtain ⟨U, hU⟩ := C77_runs (fin := Dbl64.Finite) i thr hn v hv .fwd0
  have hz : cval Ieee.val (![fofNat 0, fofNat 0] : Xmm Dbl64) = 0 := by
    have h := (ieee_binary64.ofNat 0 (by simp)).2
    apply Complex.ext
    · exact h.trans Nat.cast_zero
    · exact h.trans Nat.cast_zero
  have hf : cfin Dbl64.Finite (![fofNat 0, fofNat 0] : Xmm Dbl64) :=
    ⟨(ieee_binary64.ofNat 0 (by simp)).1, (ieee_binary64.ofNat 0 (by simp)).1⟩
  obtain ⟨V, hV⟩ := C77_runs (fin := Dbl64.Finite) (M := 1) i thr hN (fun t => if t < 6 then v t else ![fofNat 0, fofNat 0])
    (fun t ht => by
      by_cases h : t < 6
      · simp only [if_pos h]; exact hv t h
      · simp only [if_neg h, hz]; exact ⟨hf, by simp⟩) .fwd0
  refine ⟨U, V, hU, hV, fun k hk => ?_⟩
  have h := (C92_complex (n := 6) (m := 4) (M := 1) ieee_binary64 i thr hn (by norm_num) hN
    (div_le_one_of_le₀ (one_le_pow₀ (by norm_num)) (by positivity)) (by
      refine le_trans (b := 2 ^ 5) (by norm_num) (pow_le_pow_right₀ (by norm_num) (by norm_num)))).pad .fwd0 _ U _ V hU hV
        (fun j _ => by by_cases h : j < 6 <;> simp [h, hz]) k hk
  simp only [Entry.factor, Complex.ofReal_one, one_mul] at h
  refine le_trans h (le_of_eq ?_)
  push_cast
  ring

end OTFFT.Props
