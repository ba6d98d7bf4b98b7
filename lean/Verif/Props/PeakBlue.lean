/-
C56 for Bluestein's transform in double precision.
-/
import Verif.Props.Peak
import Verif.Props.AccuracyBlue

namespace OTFFT.Props
open OTFFT Finset

variable {n : ℕ} {F : Type} [FArith F] [Inhabited F] {val : F → ℝ} {fin : F → Prop}

/-- C56: Bluestein's transform in double precision, of any length up to `2²⁹`: samples that differ from a tone of integer frequency
`f` and amplitude `|a|` by at most `δ` each have their largest bin at `f`, if noise and rounding are not as large as half the amplitude. -/
theorem C56_bluestein_double (hF : Binary64 F val fin) (i : Target) (thr : Thr) (h1 : 1 ≤ n) (h29 : n ≤ 2 ^ 29) {w : World (Xmm F)} {x : Ptr}
    {v : ℕ → Xmm F} (hx : UserArray w x n v) (e : Entry) {a : ℂ} {f : ℕ} (hf : f < n) {δ : ℝ}
    (hv : ∀ t < n, cfin fin (v t) ∧ ‖cval val (v t) - a * turn n (-e.sign * (f * t))‖ ≤ δ)
    (hm : 1 / 2 ^ 970 ≤ ‖a‖ + δ) (hM : n * (n * (n * (‖a‖ + δ))) ≤ 2 ^ 1013)
    (hδ : 2 * (δ + (150 * Nat.clog 2 n + 207) / 2 ^ 52 * (16 * (n * (‖a‖ + δ)))) < ‖a‖) :
    letI := i.arith F
    ∃ out : ℕ → Xmm F, Computes (bluesteinFFT (Xmm F) thr) n [(e, x)] w x n out ∧ (∀ t < n, cfin fin (out t)) ∧
      PeakAt n f fun k => ‖cval val (out k)‖ := by
  letI := i.arith F
  have hpos : (0 : ℝ) < n := by exact_mod_cast h1
  have hb : ∀ t < n, cfin fin (v t) ∧ ‖cval val (v t)‖ ≤ ‖a‖ + δ := by
    intro t ht
    refine ⟨(hv t ht).1, ?_⟩
    have h1 := (hv t ht).2
    have h2 := norm_add_le (a * turn n (-e.sign * (f * t))) (cval val (v t) - a * turn n (-e.sign * (f * t)))
    rw [add_sub_cancel, norm_mul, turn_norm, mul_one] at h2
    linarith
  obtain ⟨out, hc, ho⟩ := C48_bluestein hF i thr h1 h29 hx hm hM hb e
  refine ⟨out, hc, fun t ht => (ho t ht).1, fun k hk hne => ?_⟩
  -- exact spectrum of the samples
  have hfac := factor_pos h1 e
  have spec : ∀ t < n, ‖e.exact n (fun j => cval val (v j)) t - (if t = f then e.factor n * n * a else 0)‖ ≤ e.factor n * n * δ := by
    intro t ht
    have h1 := (identities h1).tone e a f hf t ht
    beta_reduce at h1
    rw [scC_factor] at h1
    rw [h1, exact_factor, ← mul_sub]
    have h3 : xdft e.isInv n (fun j => cval val (v j)) t - xdft e.isInv n (fun j => a * turn n (-e.sign * (f * j))) t =
        xdft e.isInv n (fun j => cval val (v j) - a * turn n (-e.sign * (f * j))) t := by
      rw [xdft_sum, xdft_sum, xdft_sum, ← sum_sub_distrib]
      exact sum_congr rfl fun j _ => by ring
    rw [h3, norm_mul, Complex.norm_real, Real.norm_eq_abs, abs_of_pos hfac, mul_assoc]
    exact mul_le_mul_of_nonneg_left (xdft_norm (fun j hj => (hv j hj).2) t) hfac.le
  have s1 := spec k hk
  have s2 := spec f hf
  rw [if_neg hne, sub_zero] at s1
  rw [if_pos rfl] at s2
  have e1 : ∀ W : ℝ, W * (16 * (n * (n * (e.factor n * (‖a‖ + δ))))) = e.factor n * n * (W * (16 * (n * (‖a‖ + δ)))) := fun W => by ring
  have o1 := (ho k hk).2
  have o2 := (ho f hf).2
  rw [e1] at o1 o2
  have t1 := norm_le_norm_add_norm_sub' (cval val (out k)) (e.exact n (fun j => cval val (v j)) k)
  have t2 := norm_le_norm_add_norm_sub' (e.exact n (fun j => cval val (v j)) f) (cval val (out f))
  have t3 := norm_le_norm_add_norm_sub' (e.factor n * n * a : ℂ) (e.exact n (fun j => cval val (v j)) f)
  rw [norm_sub_rev] at t2 t3
  have hA : ‖(e.factor n * n * a : ℂ)‖ = e.factor n * n * ‖a‖ := by
    rw [norm_mul, norm_mul, Complex.norm_real, Real.norm_eq_abs, abs_of_pos hfac, Complex.norm_natCast]
  rw [hA] at t3
  have hq : 0 < e.factor n * n := by positivity
  have fin := mul_lt_mul_of_pos_left hδ hq
  show ‖cval val (out k)‖ < ‖cval val (out f)‖
  generalize e.factor n * n = q at *
  generalize (150 * (Nat.clog 2 n : ℝ) + 207) / 2 ^ 52 * (16 * (n * (‖a‖ + δ))) = W at *
  linarith

/-- 101 samples (a prime number), 7 periods, noise up to 10 -/
example (thr : Thr) (v : ℕ → Xmm R53) (hv : ∀ t < 101, ‖cval R53.val (v t) - 64 * turn 101 (-Entry.sign .fwd0 * (7 * t))‖ ≤ 10) :
    letI := (⟨true, true, true, true, false⟩ : Target).arith R53
    ∃ out : ℕ → Xmm R53, Computes (bluesteinFFT (Xmm R53) thr) 101 [(.fwd0, Ptr.base 1)] (oneArray 101 v) (Ptr.base 1) 101 out ∧
      PeakAt 101 7 fun k => ‖cval R53.val (out k)‖ := by
  have hc : Nat.clog 2 101 ≤ 7 := Nat.clog_le_of_le_pow (by norm_num)
  have hc' : (Nat.clog 2 101 : ℝ) ≤ 7 := by exact_mod_cast hc
  have h64 : ‖(64 : ℂ)‖ = 64 := by simp
  obtain ⟨out, h, _, hp⟩ := C56_bluestein_double (n := 101) (δ := 10) (a := 64) (f := 7) rounded_laws ⟨true, true, true, true, false⟩ thr (by norm_num) (by norm_num)
    (oneArray_ok 101 v) .fwd0 (by norm_num) (fun t ht => ⟨⟨trivial, trivial⟩, by exact_mod_cast hv t ht⟩)
    (le_trans (div_le_one_of_le₀ (one_le_pow₀ (by norm_num)) (by positivity)) (by rw [h64]; norm_num))
    (le_trans (b := 2 ^ 30) (by rw [h64]; norm_num) (pow_le_pow_right₀ (by norm_num) (by norm_num)))
    (by
      rw [h64]
      push_cast
      have : (150 * (Nat.clog 2 101 : ℝ) + 207) / 2 ^ 52 ≤ 1 / 2 ^ 40 := by
        rw [div_le_div_iff₀ (by positivity) (by positivity)]
        nlinarith
      nlinarith)
  exact ⟨out, h, hp⟩

end OTFFT.Props
