/-
C56: the largest bin of the spectrum of a tone is the bin of its frequency (what unit_tests/otfft_find_peak_test.cpp samples).
-/
import Verif.Proof.Peak
import Verif.Props.Identities
import Verif.Props.Accuracy
import Verif.Props.AccuracyReal

namespace OTFFT.Props
open OTFFT Finset

variable {thr : Thr} {n : ℕ}

/-- bin `k` is larger than every other bin below `m` -/
def PeakAt (m k : ℕ) (mag : ℕ → ℝ) : Prop := ∀ t < m, t ≠ k → mag t < mag k

theorem xdft_tone (e : Entry) (a : ℂ) (φ : ℝ) (k : ℕ) :
    xdft e.isInv n (fun j => a * turn n (-e.sign * (φ * j))) k = a * ∑ j ∈ range n, turn n (-e.sign * (φ - k) * j) := by
  rw [xdft_sum, Finset.mul_sum]
  refine sum_congr rfl fun j _ => ?_
  rw [om_turn, mul_assoc, ← turn_add]
  congr 2
  ring

theorem sum_turn_neg (x : ℝ) : ‖∑ j ∈ range n, turn n (-x * j)‖ = ‖∑ j ∈ range n, turn n (x * j)‖ := by
  have : (∑ j ∈ range n, turn n (-x * j)) = (starRingEnd ℂ) (∑ j ∈ range n, turn n (x * j)) := by
    rw [map_sum]
    refine sum_congr rfl fun j _ => ?_
    unfold turn
    rw [← Complex.exp_conj]
    congr 1
    simp [show (starRingEnd ℂ) 2 = 2 from map_ofNat _ 2]
  rw [this, RCLike.norm_conj]

theorem sum_turn_sign (e : Entry) (x : ℝ) : ‖∑ j ∈ range n, turn n (-e.sign * x * j)‖ = ‖∑ j ∈ range n, turn n (x * j)‖ := by
  cases e
  all_goals first
    | (simp only [Entry.sign, neg_neg, one_mul]; done)
    | (have := sum_turn_neg (n := n) x; simpa [Entry.sign] using this)

theorem factor_pos (hn : 0 < n) (e : Entry) : 0 < e.factor n := by
  have h : (0 : ℝ) < n := by exact_mod_cast hn
  cases e <;> simp only [Entry.factor] <;> positivity

theorem tone_peak (hn : 0 < n) (e : Entry) {a : ℂ} (ha : a ≠ 0) {φ : ℝ} {f : ℕ} (hf : f < n) (hφ : |φ - f| < 1 / 2) :
    PeakAt n f fun k => ‖scC n e.mode * xdft e.isInv n (fun j => a * turn n (-e.sign * (φ * j))) k‖ := by
  intro k hk hne
  have h := tone_lt hn hf hk hne hφ
  simp only [xdft_tone, norm_mul, sum_turn_sign]
  have h1 : 0 < ‖a‖ := norm_pos_iff.2 ha
  have h2 : 0 < ‖scC n e.mode‖ := by
    rw [scC_factor, Complex.norm_real, Real.norm_eq_abs]; exact abs_pos.2 (factor_pos hn e).ne'
  gcongr

/-- C56: complex class, exact arithmetic: a tone whose frequency `φ`, any real number, is within half a bin of bin `f` has its largest
bin at `f` (for the inverse transforms: the conjugate tone). -/
theorem C56_complex (thr : Thr) (hn : ValidLen n) {w : World ℂ} {x : Ptr} (e : Entry) {a : ℂ} (ha : a ≠ 0) {φ : ℝ} {f : ℕ} (hf : f < n)
    (hφ : |φ - f| < 1 / 2) (hx : UserArray w x n fun j => a * turn n (-e.sign * (φ * j))) :
    ∃ U, Computes (complexFFT ℂ thr) n [(e, x)] w x n U ∧ PeakAt n f fun k => ‖U k‖ :=
  ⟨_, computes_out hn hx [e] _ fun t ht => fftOut_C hn.two _ ht, tone_peak (by have := hn.two; omega) e ha hf hφ⟩

/-- C56: Bluestein's algorithm, the same. -/
theorem C56_bluestein (thr : Thr) (h1 : 1 ≤ n) (h29 : n ≤ 2 ^ 29) {w : World ℂ} {x : Ptr} (e : Entry) {a : ℂ} (ha : a ≠ 0) {φ : ℝ} {f : ℕ}
    (hf : f < n) (hφ : |φ - f| < 1 / 2) (hx : UserArray w x n fun j => a * turn n (-e.sign * (φ * j))) :
    ∃ U, Computes (bluesteinFFT ℂ thr) n [(e, x)] w x n U ∧ PeakAt n f fun k => ‖U k‖ :=
  ⟨_, blue_one thr h1 h29 hx e, tone_peak h1 e ha hf hφ⟩

/-- `a cos(2πφj/n + θ)` -/
noncomputable def sine (n : ℕ) (a φ θ : ℝ) (j : ℕ) : ℝ := a * Real.cos (2 * Real.pi * φ * j / n + θ)

theorem sine_dft (a φ θ : ℝ) (k : ℕ) : Spec.dft n (Spec.ofReal (sine n a φ θ)) k =
    a / 2 * (Complex.exp (θ * Complex.I) * ∑ j ∈ range n, turn n ((φ - k) * j) +
      Complex.exp (-(θ * Complex.I)) * ∑ j ∈ range n, turn n ((-φ - k) * j)) := by
  unfold Spec.dft
  rw [Finset.mul_sum, Finset.mul_sum, ← sum_add_distrib, Finset.mul_sum]
  refine sum_congr rfl fun j _ => ?_
  have e1 : turn n ((φ - k) * j) = turn n (φ * j) * Complex.exp (-(2 * Real.pi * Complex.I) * j * k / n) := by
    unfold turn
    rw [← Complex.exp_add]; congr 1; push_cast; ring
  have e2 : turn n ((-φ - k) * j) = turn n (-(φ * j)) * Complex.exp (-(2 * Real.pi * Complex.I) * j * k / n) := by
    unfold turn
    rw [← Complex.exp_add]; congr 1; push_cast; ring
  have e3 : Spec.ofReal (sine n a φ θ) j = a / 2 * (Complex.exp (θ * Complex.I) * turn n (φ * j) + Complex.exp (-(θ * Complex.I)) * turn n (-(φ * j))) := by
    unfold turn Spec.ofReal sine
    rw [← Complex.exp_add, ← Complex.exp_add]
    push_cast
    rw [Complex.cos]
    ring_nf
  rw [e1, e2, e3]
  ring

theorem exp_norm (θ : ℝ) : ‖Complex.exp (θ * Complex.I)‖ = 1 ∧ ‖Complex.exp (-(θ * Complex.I))‖ = 1 := by
  refine ⟨Complex.norm_exp_ofReal_mul_I θ, ?_⟩
  have := Complex.norm_exp_ofReal_mul_I (-θ)
  rwa [Complex.ofReal_neg, neg_mul] at this

/-- C56: real class, exact arithmetic: a sine of any phase whose frequency is within a quarter of bin `f`, two bins away from the ends of
the half spectrum, has its largest bin among `0, ..., n/2` at `f`. -/
theorem C56_real (thr : Thr) {w : World ℂ} {x y : Ptr} {a φ θ : ℝ} (ha : a ≠ 0) {f : ℕ} (hf : 2 ≤ f) (hf' : 2 * f + 4 ≤ n)
    (hφ : |φ - f| ≤ 1 / 4) (hx : FwdArgs w n x y (sine n a φ θ)) (e : Entry) (he : e ∈ [Entry.fwd, .fwd0, .fwdu, .fwdn]) :
    ∃ Y, Computes (realFFT ℂ thr) n [(e, x, y)] w y n Y ∧ PeakAt (n / 2 + 1) f fun k => ‖Y k‖ := by
  have hi : e.isInv = false := by
    simp only [List.mem_cons, List.not_mem_nil, or_false] at he
    rcases he with rfl | rfl | rfl | rfl <;> rfl
  refine ⟨_, real_fwd thr hx e hi, fun k hk hne => ?_⟩
  have hn : 0 < n := by omega
  have h := sine_lt hf hf' (by omega : 2 * k ≤ n) hne hφ
  have h2 : 0 < ‖scC n e.mode‖ := by
    rw [scC_factor, Complex.norm_real, Real.norm_eq_abs]; exact abs_pos.2 (factor_pos hn e).ne'
  have h3 : 0 < ‖(a / 2 : ℂ)‖ := norm_pos_iff.2 (div_ne_zero (by exact_mod_cast ha) two_ne_zero)
  obtain ⟨n1, n2⟩ := exp_norm θ
  simp only [sine_dft, norm_mul]
  refine mul_lt_mul_of_pos_left (mul_lt_mul_of_pos_left ?_ h3) h2
  have t1 := norm_add_le (Complex.exp (θ * Complex.I) * ∑ j ∈ range n, turn n ((φ - k) * j))
    (Complex.exp (-(θ * Complex.I)) * ∑ j ∈ range n, turn n ((-φ - k) * j))
  have t2 := norm_sub_le_norm_add (Complex.exp (θ * Complex.I) * ∑ j ∈ range n, turn n ((φ - f) * j))
    (Complex.exp (-(θ * Complex.I)) * ∑ j ∈ range n, turn n ((-φ - f) * j))
  rw [norm_mul, norm_mul, n1, n2, one_mul, one_mul] at t1 t2
  linarith

/-! ### double precision -/

section
variable {F : Type} [FArith F] [Inhabited F] {val : F → ℝ} {fin : F → Prop}

theorem exact_factor (e : Entry) (x : ℕ → ℂ) (t : ℕ) : e.exact n x t = e.factor n * xdft e.isInv n x t := by
  rw [exact_eq, scC_factor]

/-- C56: complex class in double precision, any instruction set: samples that differ from a tone of integer frequency `f` and amplitude
`|a|` by at most `δ` each (noise, or rounding when the samples were made) have their largest bin at `f`, if noise and
rounding are not as large as half the amplitude. -/
theorem C56_double (hF : Binary64 F val fin) (i : Target) (thr : Thr) (hn : ValidLen n) {w : World (Xmm F)} {x : Ptr} {v : ℕ → Xmm F}
    (hx : UserArray w x n v) (e : Entry) {a : ℂ} {f : ℕ} (hf : f < n) {δ : ℝ}
    (hv : ∀ t < n, cfin fin (v t) ∧ ‖cval val (v t) - a * turn n (-e.sign * (f * t))‖ ≤ δ)
    (hm : 1 / 2 ^ 970 ≤ ‖a‖ + δ) (hM : n * (‖a‖ + δ) ≤ 2 ^ 1019)
    (hδ : 2 * (δ + errWeight n / 2 ^ 52 * (‖a‖ + δ)) < ‖a‖) :
    letI := i.arith F
    ∃ out : ℕ → Xmm F, Computes (complexFFT (Xmm F) thr) n [(e, x)] w x n out ∧ (∀ t < n, cfin fin (out t)) ∧
      PeakAt n f fun k => ‖cval val (out k)‖ := by
  letI := i.arith F
  have h2 := hn.two
  have hpos : (0 : ℝ) < n := by exact_mod_cast (by omega : 0 < n)
  have hb : ∀ t < n, cfin fin (v t) ∧ ‖cval val (v t)‖ ≤ ‖a‖ + δ := by
    intro t ht
    refine ⟨(hv t ht).1, ?_⟩
    have h1 := (hv t ht).2
    have h2 := norm_add_le (a * turn n (-e.sign * (f * t))) (cval val (v t) - a * turn n (-e.sign * (f * t)))
    rw [add_sub_cancel, norm_mul, turn_norm, mul_one] at h2
    linarith
  obtain ⟨out, hc, ho⟩ := C46_accuracy hF i thr hn hx hm hM hb e
  refine ⟨out, hc, fun t ht => (ho t ht).1, fun k hk hne => ?_⟩
  -- exact spectrum of the samples
  have hfac := factor_pos (by omega : 0 < n) e
  have spec : ∀ t < n, ‖e.exact n (fun j => cval val (v j)) t - (if t = f then e.factor n * n * a else 0)‖ ≤ e.factor n * n * δ := by
    intro t ht
    have h1 := (identities (by omega : 0 < n)).tone e a f hf t ht
    beta_reduce at h1
    rw [scC_factor] at h1
    rw [h1, exact_factor, ← mul_sub]
    have h3 : xdft e.isInv n (fun j => cval val (v j)) t - xdft e.isInv n (fun j => a * turn n (-e.sign * (f * j))) t =
        xdft e.isInv n (fun j => cval val (v j) - a * turn n (-e.sign * (f * j))) t := by
      rw [xdft_sum, xdft_sum, xdft_sum, ← sum_sub_distrib]
      exact sum_congr rfl fun j _ => by ring
    rw [h3, norm_mul, Complex.norm_real, Real.norm_eq_abs, abs_of_pos hfac, mul_assoc]
    exact mul_le_mul_of_nonneg_left (xdft_norm (fun j hj => (hv j hj).2) t) hfac.le
  have s1 := spec k hk
  have s2 := spec f hf
  rw [if_neg hne, sub_zero] at s1
  rw [if_pos rfl] at s2
  have o1 := (ho k hk).2
  have o2 := (ho f hf).2
  have t1 := norm_le_norm_add_norm_sub' (cval val (out k)) (e.exact n (fun j => cval val (v j)) k)
  have t2 := norm_le_norm_add_norm_sub' (e.exact n (fun j => cval val (v j)) f) (cval val (out f))
  have t3 := norm_le_norm_add_norm_sub' (e.factor n * n * a : ℂ) (e.exact n (fun j => cval val (v j)) f)
  rw [norm_sub_rev] at t2 t3
  have hA : ‖(e.factor n * n * a : ℂ)‖ = e.factor n * n * ‖a‖ := by
    rw [norm_mul, norm_mul, Complex.norm_real, Real.norm_eq_abs, abs_of_pos hfac, Complex.norm_natCast]
  rw [hA] at t3
  have hq : 0 < e.factor n * n := by positivity
  have fin := mul_lt_mul_of_pos_left hδ hq
  show ‖cval val (out k)‖ < ‖cval val (out f)‖
  generalize e.factor n * n = q at *
  generalize (errWeight n : ℝ) / 2 ^ 52 = W at *
  linarith

theorem tone_zero (hn : 0 < n) {f : ℝ} (m : ℤ) (hf : f = m) (h0 : 0 < |f|) (h1 : |f| < n) : ∑ j ∈ range n, turn n (f * j) = 0 := by
  have h := tone_sum hn f
  have hz : sn 1 f = 0 := by
    have := sn_int hn f m
    rw [hf, sub_self] at this
    rw [hf, ← this]
    simp [sn]
  rw [hz] at h
  have hp := sn_pos hn h0 h1
  rw [sn_abs] at hp
  rcases mul_eq_zero.1 h with h | h
  · exact norm_eq_zero.1 h
  · linarith

/-- spectrum of a sine of integer frequency -/
theorem sine_int {a θ : ℝ} {f k : ℕ} (hf : 0 < f) (hf' : 2 * f < n) (hk : 2 * k ≤ n) :
    Spec.dft n (Spec.ofReal (sine n a f θ)) k = if k = f then n * a / 2 * Complex.exp (θ * Complex.I) else 0 := by
  have hn : 0 < n := by omega
  have z2 : ∑ j ∈ range n, turn n ((-(f : ℝ) - k) * j) = 0 := by
    have e : |(-(f : ℝ) - k)| = (f + k : ℕ) := by
      rw [abs_of_nonpos (by have h1 := Nat.cast_nonneg (α := ℝ) f; have h2 := Nat.cast_nonneg (α := ℝ) k; linarith)]
      push_cast; ring
    refine tone_zero hn (-(f : ℤ) - k) (by push_cast; ring) ?_ ?_
    · rw [e]; exact_mod_cast (by omega : 0 < f + k)
    · rw [e]; exact_mod_cast (by omega : f + k < n)
  rw [sine_dft, z2, mul_zero, add_zero]
  by_cases h : k = f
  · rw [if_pos h, h, sub_self]
    simp only [zero_mul, turn_zero, sum_const, card_range, nsmul_eq_mul, mul_one]
    ring
  · rw [if_neg h]
    have e : |((f : ℝ) - k)| = (|(f : ℤ) - k| : ℤ) := by push_cast; rfl
    have z1 : ∑ j ∈ range n, turn n (((f : ℝ) - k) * j) = 0 := by
      refine tone_zero hn ((f : ℤ) - k) (by push_cast; ring) ?_ ?_
      · rw [e]; exact_mod_cast abs_pos.2 (by omega : (f : ℤ) - k ≠ 0)
      · rw [e]
        have : |(f : ℤ) - k| < n := by rw [abs_lt]; omega
        exact_mod_cast this
    rw [z1, mul_zero, mul_zero]

theorem sine_abs (a φ θ : ℝ) (j : ℕ) : |sine n a φ θ j| ≤ |a| := by
  unfold sine
  rw [abs_mul]
  exact mul_le_of_le_one_right (abs_nonneg _) (Real.abs_cos_le_one _)

/-- C56: real class in double precision: samples that differ by at most `δ` each from a sine of any phase, of amplitude `|a|`, with `f`
periods in the window, `0 < f < n/2`, have their largest bin among `0, ..., n/2` at `f`, if noise and rounding are not as large as a
quarter of the amplitude. -/
theorem C56_real_double (hF : Binary64 F val fin) (i : Target) (thr : Thr) (hn : RealLen n) {w : World (Xmm F)} {x y : Ptr} (wf : w.WF)
    {d : ℕ → F} (hx : Arr w.heap x n (doubles d)) (hy : Alloc w.heap y n) (hxy : Sep x n y n) (e : Entry)
    (he : e ∈ [Entry.fwd, .fwd0, .fwdu, .fwdn]) {a θ : ℝ} {f : ℕ} (hf : 0 < f) (hf' : 2 * f < n) {δ : ℝ}
    (hd : ∀ t < n, fin (d t) ∧ |val (d t) - sine n a f θ t| ≤ δ)
    (hm : 1 / 2 ^ 970 ≤ |a| + δ) (hM : n * (|a| + δ) ≤ 2 ^ 1016)
    (hδ : 4 * (δ + 3 * (errWeight (n / 2) + 84) / 2 ^ 52 * (|a| + δ)) < |a|) :
    letI := i.arith F
    ∃ out : ℕ → Xmm F, Computes (realFFT (Xmm F) thr) n [(e, x, y)] w y n out ∧ (∀ t < n, cfin fin (out t)) ∧
      PeakAt (n / 2 + 1) f fun k => ‖cval val (out k)‖ := by
  letI := i.arith F
  have hi : e.isInv = false := by
    simp only [List.mem_cons, List.not_mem_nil, or_false] at he
    rcases he with rfl | rfl | rfl | rfl <;> rfl
  have hn0 : 0 < n := hn.pos
  have hpos : (0 : ℝ) < n := by exact_mod_cast hn0
  have hb : ∀ t < n, fin (d t) ∧ |val (d t)| ≤ |a| + δ := by
    intro t ht
    refine ⟨(hd t ht).1, ?_⟩
    have h1 := (hd t ht).2
    have h2 := abs_add_le (sine n a f θ t) (val (d t) - sine n a f θ t)
    rw [add_sub_cancel] at h2
    have h3 := sine_abs (n := n) a f θ t
    linarith
  obtain ⟨out, hc, ho⟩ := C47_real_forward hF i thr hn wf hx hy hxy hm hM hb e he
  refine ⟨out, hc, fun t ht => (ho t ht).1, fun k hk hne => ?_⟩
  have hfac := factor_pos hn0 e
  have spec : ∀ t, 2 * t ≤ n → ‖e.exact n (Spec.ofReal fun j => val (d j)) t -
      (if t = f then e.factor n * (n * a / 2 * Complex.exp (θ * Complex.I)) else 0)‖ ≤ e.factor n * n * δ := by
    intro t ht
    have h1 := sine_int (a := a) (θ := θ) hf hf' ht
    have h2 : (if t = f then (e.factor n : ℂ) * (n * a / 2 * Complex.exp (θ * Complex.I)) else 0) =
        e.factor n * Spec.dft n (Spec.ofReal (sine n a f θ)) t := by
      rw [h1]; split <;> simp
    rw [h2, exact_factor, hi, Spec.dft_eq, ← mul_sub]
    have h3 : xdft false n (Spec.ofReal fun j => val (d j)) t - xdft false n (Spec.ofReal (sine n a f θ)) t =
        xdft false n (Spec.ofReal fun j => val (d j) - sine n a f θ j) t := by
      rw [xdft_sum, xdft_sum, xdft_sum, ← sum_sub_distrib]
      exact sum_congr rfl fun j _ => by simp only [Spec.ofReal]; push_cast; ring
    rw [h3, norm_mul, Complex.norm_real, Real.norm_eq_abs, abs_of_pos hfac, mul_assoc]
    refine mul_le_mul_of_nonneg_left (xdft_norm (fun j hj => ?_) t) hfac.le
    rw [Spec.ofReal, Complex.norm_real, Real.norm_eq_abs]
    exact (hd j hj).2
  have s1 := spec k (by omega)
  have s2 := spec f (by omega)
  rw [if_neg hne, sub_zero] at s1
  rw [if_pos rfl] at s2
  have o1 := (ho k (by omega)).2
  have o2 := (ho f (by omega)).2
  have t1 := norm_le_norm_add_norm_sub' (cval val (out k)) (e.exact n (Spec.ofReal fun j => val (d j)) k)
  have t2 := norm_le_norm_add_norm_sub' (e.exact n (Spec.ofReal fun j => val (d j)) f) (cval val (out f))
  have t3 := norm_le_norm_add_norm_sub' (e.factor n * (n * a / 2 * Complex.exp (θ * Complex.I)) : ℂ) (e.exact n (Spec.ofReal fun j => val (d j)) f)
  rw [norm_sub_rev] at t2 t3
  have hA : ‖(e.factor n * (n * a / 2 * Complex.exp (θ * Complex.I)) : ℂ)‖ = e.factor n * n * (|a| / 2) := by
    rw [norm_mul, norm_mul, norm_div, norm_mul, (exp_norm θ).1, Complex.norm_real, Complex.norm_real, Real.norm_eq_abs, Real.norm_eq_abs,
      abs_of_pos hfac, Complex.norm_natCast, Complex.norm_two]
    ring
  rw [hA] at t3
  have hq : 0 < e.factor n * n := by positivity
  have fin := mul_lt_mul_of_pos_left hδ hq
  have eW : (errWeight (n / 2) + 84 : ℝ) / 2 ^ 52 * (3 * (n * (e.factor n * (|a| + δ)))) =
      e.factor n * n * (3 * (errWeight (n / 2) + 84) / 2 ^ 52 * (|a| + δ)) := by ring
  rw [eW] at o1 o2
  show ‖cval val (out k)‖ < ‖cval val (out f)‖
  generalize 3 * (errWeight (n / 2) + 84 : ℝ) / 2 ^ 52 * (|a| + δ) = W at *
  generalize e.factor n * n = q at *
  linarith

end

/-! ### the hypotheses are met -/

example (thr : Thr) : ∃ U, Computes (complexFFT ℂ thr) 100 [(.fwd0, Ptr.base 1)]
    (oneArray 100 fun j => 64 * turn 100 (-Entry.sign .fwd0 * (6.4 * j))) (Ptr.base 1) 100 U ∧ PeakAt 100 6 fun k => ‖U k‖ :=
  C56_complex thr (validLen_of_le (by omega) (by omega)) .fwd0 (by norm_num) (by omega) (by norm_num [abs_of_pos]) (oneArray_ok _ _)

/-- the setting of TestSinePeakDetect2: 1024 samples, 5.12 periods -/
example (thr : Thr) : ∃ Y, Computes (realFFT ℂ thr) 1024 [(.fwd, Ptr.base 1, Ptr.base 2)]
    (twoArrays 1024 (Spec.ofReal (sine 1024 64 5.12 0))) (Ptr.base 2) 1024 Y ∧ PeakAt (1024 / 2 + 1) 5 fun k => ‖Y k‖ :=
  C56_real thr (by norm_num) (by omega) (by omega) (by norm_num [abs_of_pos])
    (twoArrays_fwd (realLen_of_le (m := 512) (by omega) (by omega)) _) .fwd (by simp)

/-- samples rounded to doubles, with noise up to 10, length 64, 6 periods -/
example (thr : Thr) (d : ℕ → R53) (hd : ∀ t < 64, |(d t).val - sine 64 64 6 0 t| ≤ 10) :
    letI := (⟨true, false, false, false, false⟩ : Target).arith R53
    ∃ out : ℕ → Xmm R53, Computes (realFFT (Xmm R53) thr) 64 [(.fwd, Ptr.base 1, Ptr.base 2)] (twoArrays 64 (doubles d))
        (Ptr.base 2) 64 out ∧ PeakAt (64 / 2 + 1) 6 fun k => ‖cval R53.val (out k)‖ := by
  have hw : (errWeight (64 / 2) : ℝ) ≤ 3000 := by exact_mod_cast le_trans (errWeight_le _) (by omega)
  have hw0 : (0 : ℝ) ≤ errWeight (64 / 2) := Nat.cast_nonneg _
  obtain ⟨out, h, _, hp⟩ := @C56_real_double 64 R53 _ _ _ _ rounded_laws ⟨true, false, false, false, false⟩ thr
    (realLen_of_le (m := 32) (by omega) (by omega)) _ (Ptr.base 1) (Ptr.base 2) (twoArrays_ok 64 (doubles d)).wf d (twoArrays_ok 64 (doubles d)).arr
    (fun i hi => by simp only [twoArrays, Ptr.base, Ptr.loc_add, Nat.zero_add, hi]; simp) (Sep.of_buf (by simp [Ptr.base]) _ _)
    .fwd (by simp) 64 0 6 (by omega) (by omega) 10 (fun t ht => ⟨trivial, by simpa using hd t ht⟩)
    (le_trans (div_le_one_of_le₀ (one_le_pow₀ (by norm_num)) (by positivity)) (by norm_num [abs_of_pos]))
    (le_trans (by norm_num [abs_of_pos] : ((64 : ℕ) : ℝ) * (|64| + 10) ≤ 2 ^ 13) (pow_le_pow_right₀ (by norm_num) (by norm_num)))
    (by
      rw [abs_of_pos (by norm_num : (0 : ℝ) < 64)]
      generalize (errWeight (64 / 2) : ℝ) = W at *
      norm_num
      linarith)
  exact ⟨out, h, hp⟩

end OTFFT.Props
