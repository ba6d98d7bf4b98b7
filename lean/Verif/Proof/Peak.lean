/-
Where the spectrum of a tone is largest.
-/
import Verif.Proof.Identities
import Verif.Spec.Identities
import Mathlib.Analysis.SpecialFunctions.Trigonometric.Bounds
import Mathlib.Analysis.Real.Pi.Bounds

namespace OTFFT

open Finset

/-- `s n x = |sin(πx/n)|` -/
noncomputable def sn (n : ℕ) (x : ℝ) : ℝ := |Real.sin (Real.pi * x / n)|

theorem turn_zero (n : ℕ) : turn n 0 = 1 := by simp [turn]

theorem turn_add (n : ℕ) (a b : ℝ) : turn n (a + b) = turn n a * turn n b := by
  unfold turn
  rw [← Complex.exp_add]
  congr 1
  push_cast
  ring

theorem turn_mul (n : ℕ) (a : ℝ) (j : ℕ) : turn n (a * j) = turn n a ^ j := by
  unfold turn
  rw [← Complex.exp_nat_mul]
  congr 1
  push_cast
  ring

theorem turn_norm (n : ℕ) (a : ℝ) : ‖turn n a‖ = 1 := by
  unfold turn
  rw [show (2 * Real.pi * Complex.I * a / n : ℂ) = ((2 * Real.pi * a / n : ℝ) : ℂ) * Complex.I by push_cast; ring]
  exact Complex.norm_exp_ofReal_mul_I _

theorem turn_sub_one (n : ℕ) (a : ℝ) : ‖turn n a - 1‖ = 2 * sn n a := by
  have h : turn n a = Complex.exp (Complex.I * ((2 * Real.pi * a / n : ℝ) : ℂ)) := by
    unfold turn; congr 1; push_cast; ring
  rw [h, Complex.norm_exp_I_mul_ofReal_sub_one, norm_mul, Real.norm_eq_abs, Real.norm_eq_abs, abs_two]
  unfold sn
  congr 3
  ring

theorem sn_int {n : ℕ} (hn : 0 < n) (a : ℝ) (k : ℤ) : sn 1 (a - k) = sn 1 a := by
  unfold sn
  have : Real.pi * (a - k) / ((1 : ℕ) : ℝ) = Real.pi * a / ((1:ℕ) : ℝ) - k * Real.pi := by push_cast; ring
  rw [this, Real.sin_sub_int_mul_pi, abs_mul, abs_zpow]
  simp

theorem turn_pow_sub_one {n : ℕ} (hn : 0 < n) (a : ℝ) : ‖turn n a ^ n - 1‖ = 2 * sn 1 a := by
  have h : turn n a ^ n = turn 1 a := by
    rw [← turn_mul]
    unfold turn
    have : (n : ℂ) ≠ 0 := by exact_mod_cast hn.ne'
    congr 1
    push_cast
    field_simp
  rw [h, turn_sub_one]

/-- the sum of a tone of frequency `a` -/
theorem tone_sum {n : ℕ} (hn : 0 < n) (a : ℝ) : ‖∑ j ∈ range n, turn n (a * j)‖ * sn n a = sn 1 a := by
  have h := geom_sum_mul (turn n a) n
  have h2 := congrArg norm h
  rw [norm_mul, turn_sub_one, turn_pow_sub_one hn] at h2
  simp only [turn_mul]
  linarith

theorem sn_nonneg (n : ℕ) (a : ℝ) : 0 ≤ sn n a := abs_nonneg _

theorem sn_neg (n : ℕ) (a : ℝ) : sn n (-a) = sn n a := by
  unfold sn
  rw [mul_neg, neg_div, Real.sin_neg, abs_neg]

theorem sn_abs (n : ℕ) (a : ℝ) : sn n |a| = sn n a := by
  rcases abs_choice a with h | h <;> rw [h]
  exact sn_neg n a

theorem sn_reflect {n : ℕ} (hn : 0 < n) (a : ℝ) : sn n (n - a) = sn n a := by
  have h0 : (n : ℝ) ≠ 0 := by exact_mod_cast hn.ne'
  unfold sn
  rw [show Real.pi * (n - a) / n = Real.pi - Real.pi * a / n by field_simp, Real.sin_pi_sub]

theorem sn_lt {n : ℕ} (hn : 0 < n) {a b : ℝ} (ha : 0 ≤ a) (hab : a < b) (hb : b ≤ n / 2) : sn n a < sn n b := by
  have h0 : (0 : ℝ) < n := by exact_mod_cast hn
  have hpi := Real.pi_pos
  have h1 : Real.pi * a / n < Real.pi * b / n := by gcongr
  have h2 : Real.pi * b / n ≤ Real.pi / 2 := by
    rw [div_le_iff₀ h0]; nlinarith
  have h3 : 0 ≤ Real.pi * a / n := by positivity
  have h4 := Real.sin_lt_sin_of_lt_of_le_pi_div_two (by linarith) h2 h1
  unfold sn
  rw [abs_of_nonneg (Real.sin_nonneg_of_nonneg_of_le_pi h3 (by linarith)),
    abs_of_nonneg (Real.sin_nonneg_of_nonneg_of_le_pi (by linarith) (by linarith))]
  exact h4

/-- farther from the multiples of `n` -/
theorem sn_lt' {n : ℕ} (hn : 0 < n) {a b : ℝ} (ha : |a| < 1 / 2) (h1 : |a| < |b|) (h2 : |b| < n - |a|) : sn n a < sn n b := by
  rw [← sn_abs n a, ← sn_abs n b]
  have h0 := abs_nonneg a
  by_cases h : |b| ≤ n / 2
  · exact sn_lt hn h0 h1 h
  · rw [← sn_reflect hn |b|]
    exact sn_lt hn h0 (by linarith) (by linarith)

theorem sn_pos {n : ℕ} (hn : 0 < n) {a : ℝ} (h0 : 0 < a) (h1 : a < n) : 0 < sn n a := by
  have h := sn_lt' hn (a := 0) (b := a) (by simp) (by simpa using h0.ne') (by rw [abs_zero, abs_of_pos h0]; linarith)
  exact lt_of_le_of_lt (sn_nonneg n 0) h

/-- The sum of a tone is largest for the frequency nearest to 0. -/
theorem tone_lt {n : ℕ} (hn : 0 < n) {φ : ℝ} {k0 k : ℕ} (hk0 : k0 < n) (hk : k < n) (hne : k ≠ k0) (hφ : |φ - k0| < 1 / 2) :
    ‖∑ j ∈ range n, turn n ((φ - k) * j)‖ < ‖∑ j ∈ range n, turn n ((φ - k0) * j)‖ := by
  have d1 : (1 : ℝ) ≤ |(k0 : ℝ) - k| := by
    have : (1 : ℤ) ≤ |(k0 : ℤ) - k| := Int.one_le_abs (by omega)
    exact_mod_cast this
  have d2 : |(k0 : ℝ) - k| ≤ n - 1 := by
    have : |(k0 : ℤ) - k| ≤ n - 1 := by rw [abs_le]; omega
    exact_mod_cast this
  have t1 : |(k0 : ℝ) - k| ≤ |φ - k0| + |φ - k| := by
    have := abs_sub_le (k0 : ℝ) φ k
    rwa [abs_sub_comm (k0 : ℝ) φ] at this
  have t2 : |φ - k| ≤ |φ - k0| + |(k0 : ℝ) - k| := abs_sub_le φ k0 k
  have hs := sn_lt' hn (a := φ - k0) (b := φ - k) hφ (by linarith) (by linarith)
  have e1 := tone_sum hn (φ - k0)
  have e2 := tone_sum hn (φ - k)
  have i1 := sn_int hn φ k0
  have i2 := sn_int hn φ k
  rw [Int.cast_natCast] at i1 i2
  rw [i1] at e1
  rw [i2] at e2
  have hsk : 0 < sn n (φ - k) := lt_of_le_of_lt (sn_nonneg _ _) hs
  by_cases h0 : φ = k0
  · -- an integer frequency
    have z : sn 1 φ = 0 := by
      unfold sn
      rw [h0, show Real.pi * (k0 : ℝ) / ((1:ℕ) : ℝ) = k0 * Real.pi by push_cast; ring, Real.sin_nat_mul_pi, abs_zero]
    rw [z] at e2
    have : ‖∑ j ∈ range n, turn n ((φ - k) * j)‖ = 0 := by
      rcases mul_eq_zero.1 e2 with h | h
      · exact h
      · linarith
    rw [this, h0, sub_self]
    simp only [zero_mul, turn_zero, sum_const, card_range, nsmul_eq_mul, mul_one, Complex.norm_natCast]
    exact_mod_cast hn
  · have hp : 0 < sn 1 φ := by
      rw [← i1, ← sn_abs]
      exact sn_pos one_pos (abs_pos.2 (sub_ne_zero.2 h0)) (by push_cast; linarith)
    have hs0 : 0 < sn n (φ - k0) := by
      rcases (sn_nonneg n (φ - k0)).lt_or_eq with h | h
      · exact h
      · rw [← h, mul_zero] at e1; linarith
    by_contra hle
    rw [not_lt] at hle
    have hpos : 0 < ‖∑ j ∈ range n, turn n ((φ - k0) * j)‖ := by
      rcases (norm_nonneg (∑ j ∈ range n, turn n ((φ - k0) * j))).lt_or_eq with h | h
      · exact h
      · rw [← h, zero_mul] at e1; linarith
    nlinarith

theorem sn_le {n : ℕ} (hn : 0 < n) (a : ℝ) : sn n a ≤ Real.pi * |a| / n := by
  have h0 : (0 : ℝ) < n := by exact_mod_cast hn
  unfold sn
  refine le_trans Real.abs_sin_le_abs ?_
  rw [abs_div, abs_mul, abs_of_pos Real.pi_pos, abs_of_pos h0]

theorem le_sn {n : ℕ} (hn : 0 < n) {a d : ℝ} (hd : 0 ≤ d) (h1 : d ≤ |a|) (h2 : d ≤ n - |a|) : 2 * d / n ≤ sn n a := by
  have h0 : (0 : ℝ) < n := by exact_mod_cast hn
  have hpi := Real.pi_pos
  have key : ∀ b : ℝ, d ≤ b → b ≤ n / 2 → 2 * d / n ≤ sn n b := by
    intro b hb hb2
    have hb0 : 0 ≤ b := hd.trans hb
    have h3 : 0 ≤ Real.pi * b / n := by positivity
    have h4 : Real.pi * b / n ≤ Real.pi / 2 := by rw [div_le_iff₀ h0]; nlinarith
    have h5 := Real.mul_le_sin h3 h4
    unfold sn
    refine le_trans ?_ (le_trans h5 (le_abs_self _))
    rw [show 2 / Real.pi * (Real.pi * b / n) = 2 * b / n by field_simp]
    gcongr
  rw [← sn_abs n a]
  by_cases h : |a| ≤ n / 2
  · exact key _ h1 h
  · rw [← sn_reflect hn |a|]
    exact key _ h2 (by linarith)

/-- sum of a tone against the distance of its frequency from the multiples of `n` -/
theorem tone_le {n : ℕ} (hn : 0 < n) {a d : ℝ} (hd : 0 < d) (h1 : d ≤ |a|) (h2 : d ≤ n - |a|) :
    ‖∑ j ∈ range n, turn n (a * j)‖ ≤ sn 1 a * n / (2 * d) := by
  have h0 : (0 : ℝ) < n := by exact_mod_cast hn
  have h := le_sn hn hd.le h1 h2
  rw [le_div_iff₀ (by positivity), ← tone_sum hn a]
  rw [div_le_iff₀ h0] at h
  have := mul_le_mul_of_nonneg_left h (norm_nonneg (∑ j ∈ range n, turn n (a * j)))
  linarith

theorem le_tone {n : ℕ} (hn : 0 < n) {a d : ℝ} (hd : 0 < d) (h1 : |a| ≤ d) :
    sn 1 a * n / (Real.pi * d) ≤ ‖∑ j ∈ range n, turn n (a * j)‖ := by
  have h0 : (0 : ℝ) < n := by exact_mod_cast hn
  have hpi := Real.pi_pos
  have h := sn_le hn a
  rw [div_le_iff₀ (by positivity), ← tone_sum hn a]
  rw [le_div_iff₀ h0] at h
  have h' : sn n a * n ≤ Real.pi * d := h.trans (by gcongr)
  have := mul_le_mul_of_nonneg_left h' (norm_nonneg (∑ j ∈ range n, turn n (a * j)))
  linarith

/-- the two components of a real tone -/
theorem sine_lt {n : ℕ} {φ : ℝ} {k0 k : ℕ} (h2 : 2 ≤ k0) (hk0 : 2 * k0 + 4 ≤ n) (hk : 2 * k ≤ n) (hne : k ≠ k0)
    (hφ : |φ - k0| ≤ 1 / 4) :
    ‖∑ j ∈ range n, turn n ((φ - k) * j)‖ + ‖∑ j ∈ range n, turn n ((-φ - k) * j)‖ + ‖∑ j ∈ range n, turn n ((-φ - k0) * j)‖ <
      ‖∑ j ∈ range n, turn n ((φ - k0) * j)‖ := by
  have hn : 0 < n := by omega
  have h0 : (0 : ℝ) < n := by exact_mod_cast hn
  obtain ⟨a1, a2⟩ := abs_le.1 hφ
  have r1 : (2 : ℝ) ≤ k0 := by exact_mod_cast h2
  have r2 : 2 * (k0 : ℝ) + 4 ≤ n := by exact_mod_cast hk0
  have r3 : 2 * (k : ℝ) ≤ n := by exact_mod_cast hk
  have r4 : (0 : ℝ) ≤ k := Nat.cast_nonneg _
  have d1 : (k : ℝ) + 1 ≤ k0 ∨ (k0 : ℝ) + 1 ≤ k := by
    rcases Nat.lt_or_gt_of_ne hne with h | h
    · left; exact_mod_cast h
    · right; exact_mod_cast h
  have b1 : (3 / 4 : ℝ) ≤ |φ - k| ∧ (3 / 4 : ℝ) ≤ n - |φ - k| := by
    rcases d1 with h | h
    · rw [abs_of_nonneg (by linarith)]; constructor <;> linarith
    · rw [abs_of_nonpos (by linarith)]; constructor <;> linarith
  have b2 : (7 / 4 : ℝ) ≤ |-φ - k| ∧ (7 / 4 : ℝ) ≤ n - |-φ - k| := by
    rw [abs_of_nonpos (by linarith)]; constructor <;> linarith
  have b3 : (15 / 4 : ℝ) ≤ |-φ - k0| ∧ (15 / 4 : ℝ) ≤ n - |-φ - k0| := by
    rw [abs_of_nonpos (by linarith)]; constructor <;> linarith
  have c1 := tone_le hn (by norm_num) b1.1 b1.2
  have c2 := tone_le hn (by norm_num) b2.1 b2.2
  have c3 := tone_le hn (by norm_num) b3.1 b3.2
  have i1 := sn_int hn φ k0
  have i2 := sn_int hn φ k
  have i3 := sn_int hn (-φ) k
  have i4 := sn_int hn (-φ) k0
  rw [Int.cast_natCast] at i1 i2 i3 i4
  rw [sn_neg] at i3 i4
  rw [i2] at c1
  rw [i3] at c2
  rw [i4] at c3
  by_cases hz : φ = k0
  · have z : sn 1 φ = 0 := by
      unfold sn
      rw [hz, show Real.pi * (k0 : ℝ) / ((1:ℕ) : ℝ) = k0 * Real.pi by push_cast; ring, Real.sin_nat_mul_pi, abs_zero]
    rw [z, zero_mul, zero_div] at c1 c2 c3
    have : ‖∑ j ∈ range n, turn n ((φ - k0) * j)‖ = n := by
      rw [hz, sub_self]
      simp only [zero_mul, turn_zero, sum_const, card_range, nsmul_eq_mul, mul_one, Complex.norm_natCast]
    linarith
  · have hp : 0 < sn 1 φ := by
      rw [← i1, ← sn_abs]
      exact sn_pos one_pos (abs_pos.2 (sub_ne_zero.2 hz)) (by push_cast; linarith)
    have c4 := le_tone hn (by norm_num) hφ
    rw [i1] at c4
    have hpi := Real.pi_lt_d2
    have hq : 0 < sn 1 φ * n := by positivity
    have c5 : sn 1 φ * n * 1.26 ≤ sn 1 φ * n / (Real.pi * (1 / 4)) := by
      rw [le_div_iff₀ (by have := Real.pi_pos; positivity)]
      nlinarith
    have e1 : sn 1 φ * n / (2 * (3 / 4)) = sn 1 φ * n * (2 / 3) := by ring
    have e2 : sn 1 φ * n / (2 * (7 / 4)) = sn 1 φ * n * (2 / 7) := by ring
    have e3 : sn 1 φ * n / (2 * (15 / 4)) = sn 1 φ * n * (2 / 15) := by ring
    rw [e1] at c1; rw [e2] at c2; rw [e3] at c3
    generalize sn 1 φ * n = q at *
    nlinarith

end OTFFT
