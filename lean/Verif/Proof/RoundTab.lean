/-
Rounding errors of constants, twiddle factors and scale factors.
-/
import Verif.Proof.Round
import Mathlib.Analysis.Real.Pi.Bounds

namespace OTFFT
namespace Flt
variable {F : Type} [FArith F] {c : Flt F} {a b : ℂ} {a' b' : Xmm F} {M M' M1 M2 : ℝ} {k k' k1 k2 : ℕ}

/-- a factor of magnitude 1 on the left -/
theorem Ap.tw_mul {f : Xmm F → Xmm F → Xmm F} (hf : c.MulOK f) (ha : c.Ap a a' 1 k1) (hb : c.Ap b b' M k2) :
    c.Ap (a * b) (f a' b') M (k1 + k2 + 4) := by
  refine ⟨hb.1, fun h1 h2 => ?_⟩
  have := Ap.mul_comp hf ha hb (le_trans (by norm_num) c.G_ge) h1 (by rw [one_mul]; exact hb.1)
  rw [one_mul] at this
  exact this.2 h1 h2

/-- a factor of magnitude 1 on the right -/
theorem Ap.mul_tw {f : Xmm F → Xmm F → Xmm F} (hf : c.MulOK f) (ha : c.Ap a a' M k1) (hb : c.Ap b b' 1 k2) :
    c.Ap (a * b) (f a' b') M (k1 + k2 + 4) := by
  refine ⟨ha.1, fun h1 h2 => ?_⟩
  have := Ap.mul_comp hf ha hb h1 (le_trans (by norm_num) c.G_ge) (by rw [mul_one]; exact ha.1)
  rw [mul_one] at this
  exact this.2 h1 h2

/-! ### constants -/

theorem m0_le_one : c.m0 ≤ 1 := le_trans c.m0_le (by norm_num)

/-- a constant of magnitude 1 whose parts have relative error `u` -/
theorem Ap.const {p q : ℝ} {p' q' : F} (h : p ^ 2 + q ^ 2 = 1) (hp : c.fin p' ∧ |c.val p' - p| ≤ c.u * |p|)
    (hq : c.fin q' ∧ |c.val q' - q| ≤ c.u * |q|) : c.Ap ⟨p, q⟩ ![p', q'] 1 1 := by
  refine ⟨m0_le_one, fun _ _ => ⟨⟨hp.1, hq.1⟩, ?_, ?_⟩⟩
  · rw [Complex.norm_def, Complex.normSq_mk, Real.sqrt_le_left zero_le_one]
    nlinarith
  · have n1 : ‖(⟨p, q⟩ : ℂ)‖ = 1 := by
      rw [Complex.norm_def, Complex.normSq_mk, Real.sqrt_eq_one]
      nlinarith
    have := norm_le_of_comp (w := c.cv ![p', q'] - ⟨p, q⟩) (z := ⟨p, q⟩) (η := 0) c.u_nonneg le_rfl
      (by rw [add_zero]; exact hp.2) (by rw [add_zero]; exact hq.2)
    rw [n1] at this
    rw [pow_one]
    linarith

theorem cos_pi8_pos : 0 < Real.cos (Real.pi / 8) :=
  Real.cos_pos_of_mem_Ioo ⟨by linarith [Real.pi_pos], by linarith [Real.pi_pos]⟩
theorem sin_pi8_pos : 0 < Real.sin (Real.pi / 8) :=
  Real.sin_pos_of_pos_of_lt_pi (by linarith [Real.pi_pos]) (by linarith [Real.pi_pos])

theorem h1x_ok : c.fin h1x ∧ |c.val h1x - Real.cos (Real.pi / 8)| ≤ c.u * |Real.cos (Real.pi / 8)| := by
  rw [abs_of_pos cos_pi8_pos]; exact c.laws.h1x
theorem h1y_ok : c.fin h1y ∧ |c.val h1y - -Real.sin (Real.pi / 8)| ≤ c.u * |-Real.sin (Real.pi / 8)| := by
  rw [abs_neg, abs_of_pos sin_pi8_pos]; exact c.laws.h1y
theorem neg_ok {p : ℝ} {p' : F} (h : c.fin p' ∧ |c.val p' - p| ≤ c.u * |p|) :
    c.fin (fneg p') ∧ |c.val (fneg p') - -p| ≤ c.u * |-p| := by
  obtain ⟨f, e⟩ := c.laws.neg p' h.1
  refine ⟨f, ?_⟩
  rw [e, abs_neg, neg_sub_neg, abs_sub_comm]
  exact h.2

theorem exp_I_mk (t : ℝ) : Complex.exp ((t : ℂ) * Complex.I) = ⟨Real.cos t, Real.sin t⟩ := by
  apply Complex.ext
  · rw [Complex.exp_ofReal_mul_I_re]
  · rw [Complex.exp_ofReal_mul_I_im]

theorem cos_3pi8 : Real.cos (3 * Real.pi / 8) = Real.sin (Real.pi / 8) := by
  rw [← Real.cos_pi_div_two_sub]; congr 1; ring
theorem sin_3pi8 : Real.sin (3 * Real.pi / 8) = Real.cos (Real.pi / 8) := by
  rw [← Real.sin_pi_div_two_sub]; congr 1; ring

theorem sc1 : Real.cos (Real.pi / 8) ^ 2 + Real.sin (Real.pi / 8) ^ 2 = 1 := by
  rw [add_comm]; exact Real.sin_sq_add_cos_sq _

theorem Ap.h1 : c.Ap (Complex.exp (-Complex.I * (Real.pi / 8))) ![h1x, h1y] 1 1 := by
  rw [show -Complex.I * ((Real.pi : ℂ) / 8) = ((-(Real.pi / 8) : ℝ) : ℂ) * Complex.I by push_cast; ring, exp_I_mk,
    Real.cos_neg, Real.sin_neg]
  exact Ap.const (by rw [neg_sq]; exact sc1) h1x_ok h1y_ok

theorem Ap.h3 : c.Ap (Complex.exp (-Complex.I * (3 * Real.pi / 8))) ![fneg h1y, fneg h1x] 1 1 := by
  rw [show -Complex.I * (3 * (Real.pi : ℂ) / 8) = ((-(3 * Real.pi / 8) : ℝ) : ℂ) * Complex.I by push_cast; ring, exp_I_mk,
    Real.cos_neg, Real.sin_neg, cos_3pi8, sin_3pi8]
  have := Ap.const (c := c) (by rw [neg_neg, neg_sq, add_comm]; exact sc1) (neg_ok h1y_ok) (neg_ok h1x_ok)
  rw [neg_neg] at this
  exact this

theorem Ap.hf : c.Ap (Complex.exp (Complex.I * (Real.pi / 8))) ![h1x, fneg h1y] 1 1 := by
  rw [show Complex.I * ((Real.pi : ℂ) / 8) = ((Real.pi / 8 : ℝ) : ℂ) * Complex.I by push_cast; ring, exp_I_mk]
  have := Ap.const (c := c) (by rw [neg_neg]; exact sc1) h1x_ok (neg_ok h1y_ok)
  rw [neg_neg] at this
  exact this

theorem Ap.hd : c.Ap (Complex.exp (Complex.I * (3 * Real.pi / 8))) ![fneg h1y, h1x] 1 1 := by
  rw [show Complex.I * (3 * (Real.pi : ℂ) / 8) = ((3 * Real.pi / 8 : ℝ) : ℂ) * Complex.I by push_cast; ring, exp_I_mk,
    cos_3pi8, sin_3pi8]
  have := Ap.const (c := c) (by rw [neg_neg, add_comm]; exact sc1) (neg_ok h1y_ok) h1x_ok
  rw [neg_neg] at this
  exact this

/-! ### real numbers -/

variable (c) in
/-- `x'` is a computed value of the real number `x`, off by at most `M·r·u` -/
def Rp (x : ℝ) (x' : F) (M r : ℝ) : Prop := c.fin x' ∧ |x| ≤ M ∧ |c.val x' - x| ≤ M * (r * c.u)

section real
variable {x y : ℝ} {x' y' : F} {r : ℝ}

theorem Rp.nonneg (h : c.Rp x x' M r) : 0 ≤ M := le_trans (abs_nonneg _) h.2.1

theorem Rp.mono {r' : ℝ} (h : c.Rp x x' M r) (hr : 0 ≤ r) (hM : M ≤ M') (hr' : r ≤ r') : c.Rp x x' M' r' :=
  ⟨h.1, le_trans h.2.1 hM, le_trans h.2.2 (mul_le_mul hM (mul_le_mul_of_nonneg_right hr' c.u_nonneg)
    (mul_nonneg hr c.u_nonneg) (le_trans h.nonneg hM))⟩

theorem Rp.nat (n : ℕ) (hn : (n : ℝ) ≤ 2 ^ 40) : c.fin (fofNat n) ∧ c.val (fofNat n) = n := by
  apply c.laws.ofNat
  have := mul_le_mul hn c.u_le c.u_nonneg (by positivity)
  norm_num at this
  linarith

/-- multiplication by an exact factor -/
theorem Rp.mul_exact (h : c.Rp x x' M r) (fy : c.fin y') (ey : c.val y' = y) {Y : ℝ} (hY : |y| ≤ Y) (hr0 : 0 ≤ r)
    (hr : r ≤ 100) (hm : c.m0 ≤ M * Y) (hG : M * Y ≤ c.G) :
    c.Rp (x * y) (fmul x' y') (M * Y) (r + 101 / 100) ∧ c.Rp (y * x) (fmul y' x') (M * Y) (r + 101 / 100) := by
  obtain ⟨fx, hx, ex⟩ := h
  have hM : 0 ≤ M := le_trans (abs_nonneg _) hx
  have hY0 : 0 ≤ Y := le_trans (abs_nonneg _) hY
  have hu := c.u_nonneg
  have hu' : c.u ≤ 1 / 100000 := le_trans c.u_le (by norm_num)
  have hru : r * c.u ≤ 1 / 1000 := by nlinarith
  have hMY := mul_nonneg hM hY0
  have e1 : |c.val x' * y - x * y| ≤ M * Y * (r * c.u) := by
    rw [← sub_mul, abs_mul]
    calc _ ≤ (M * (r * c.u)) * Y := mul_le_mul ex hY (abs_nonneg _) (by positivity)
      _ = _ := by ring
  have e2 : |x * y| ≤ M * Y := by rw [abs_mul]; exact mul_le_mul hx hY (abs_nonneg _) hM
  have e3 : |c.val x' * y| ≤ M * Y * (1 + 1 / 1000) := by
    have := abs_le_add (c.val x' * y) (x * y)
    nlinarith
  have hΩ : |c.val x' * c.val y'| ≤ c.Ω := by rw [ey]; linarith [c.G_le, c.G_pos]
  have fin : ∀ t : ℝ, |t - c.val x' * y| ≤ c.u * |c.val x' * y| + c.η → |t - x * y| ≤ M * Y * ((r + 101 / 100) * c.u) := by
    intro t ht
    have := abs_add_le (t - c.val x' * y) (c.val x' * y - x * y)
    rw [sub_add_sub_cancel] at this
    have := mul_le_mul_of_nonneg_left e3 hu
    have := c.η_le_of hm
    nlinarith
  constructor
  · obtain ⟨f, e⟩ := c.laws.mul x' y' fx fy hΩ
    rw [ey] at e
    exact ⟨f, e2, fin _ e⟩
  · obtain ⟨f, e⟩ := c.laws.mul y' x' fy fx (by rw [mul_comm]; exact hΩ)
    rw [ey, mul_comm y] at e
    rw [mul_comm y]
    exact ⟨f, e2, fin _ e⟩

/-- division by an exact number of magnitude at least `Y` -/
theorem Rp.div_exact (h : c.Rp x x' M r) (fy : c.fin y') (ey : c.val y' = y) (hy : 0 < y) (hr0 : 0 ≤ r)
    (hr : r ≤ 100) (hm : c.m0 ≤ M / y) (hG : M / y ≤ c.G) :
    c.Rp (x / y) (fdiv x' y') (M / y) (r + 101 / 100) := by
  obtain ⟨fx, hx, ex⟩ := h
  have hM : 0 ≤ M := le_trans (abs_nonneg _) hx
  have hu := c.u_nonneg
  have hu' : c.u ≤ 1 / 100000 := le_trans c.u_le (by norm_num)
  have hru : r * c.u ≤ 1 / 1000 := by nlinarith
  have hMY := div_nonneg hM hy.le
  have e1 : |c.val x' / y - x / y| ≤ M / y * (r * c.u) := by
    rw [← sub_div, abs_div, abs_of_pos hy, div_mul_eq_mul_div]
    exact div_le_div_of_nonneg_right ex hy.le
  have e2 : |x / y| ≤ M / y := by rw [abs_div, abs_of_pos hy]; exact div_le_div_of_nonneg_right hx hy.le
  have e3 : |c.val x' / y| ≤ M / y * (1 + 1 / 1000) := by
    have := abs_le_add (c.val x' / y) (x / y)
    nlinarith
  have hΩ : |c.val x' / c.val y'| ≤ c.Ω := by rw [ey]; linarith [c.G_le, c.G_pos]
  obtain ⟨f, e⟩ := c.laws.div x' y' fx fy (by rw [ey]; exact hy.ne') hΩ
  rw [ey] at e
  refine ⟨f, e2, ?_⟩
  have := abs_add_le (c.val (fdiv x' y') - c.val x' / y) (c.val x' / y - x / y)
  rw [sub_add_sub_cancel] at this
  have := mul_le_mul_of_nonneg_left e3 hu
  have := c.η_le_of hm
  nlinarith

theorem Rp.pi : c.Rp Real.pi fpi Real.pi 1 := by
  obtain ⟨f, e⟩ := c.laws.pi
  exact ⟨f, le_of_eq (abs_of_pos Real.pi_pos), by rw [one_mul, mul_comm]; exact e⟩

theorem Rp.neg (h : c.Rp x x' M r) : c.Rp (-x) (fneg x') M r := by
  obtain ⟨f, e⟩ := c.laws.neg x' h.1
  refine ⟨f, by rw [abs_neg]; exact h.2.1, ?_⟩
  rw [e, neg_sub_neg, abs_sub_comm]
  exact h.2.2

end real

/-! ### unit vectors -/

/-- the parts of a unit vector -/
theorem trig_ok {x : ℝ} {x' : F} {B r : ℝ} (h : c.Rp x x' B r) (hB : B ≤ 7) (hr0 : 0 ≤ r) (hr : r ≤ 100) :
    (c.fin (fcos x') ∧ c.fin (fsin x')) ∧
      ‖(⟨c.val (fcos x'), c.val (fsin x')⟩ : ℂ) - Complex.exp ((x : ℂ) * Complex.I)‖ ≤ (B * r + 3) * c.u := by
  obtain ⟨f, hx, e⟩ := h
  have hu := c.u_nonneg
  have hu' : c.u ≤ 1 / 100000 := le_trans c.u_le (by norm_num)
  have hB0 : 0 ≤ B := le_trans (abs_nonneg _) hx
  have h8 : |c.val x'| ≤ 8 := by
    have := abs_le_add (c.val x') x
    have : r * c.u ≤ 1 / 1000 := by nlinarith
    nlinarith
  obtain ⟨fc, ec⟩ := c.laws.cos x' f h8
  obtain ⟨fs, es⟩ := c.laws.sin x' f h8
  refine ⟨⟨fc, fs⟩, ?_⟩
  have e1 : ‖(⟨c.val (fcos x'), c.val (fsin x')⟩ : ℂ) - Complex.exp ((c.val x' : ℂ) * Complex.I)‖ ≤ 3 / 2 * (2 * c.u) := by
    rw [exp_I_mk]
    exact norm_le_of_abs ec es
  have e2 : ‖Complex.exp ((c.val x' : ℂ) * Complex.I) - Complex.exp ((x : ℂ) * Complex.I)‖ ≤ |c.val x' - x| := by
    have e0 : Complex.exp ((c.val x' : ℂ) * Complex.I) - Complex.exp ((x : ℂ) * Complex.I) =
        Complex.exp ((x : ℂ) * Complex.I) * (Complex.exp (Complex.I * ((c.val x' - x : ℝ) : ℂ)) - 1) := by
      rw [mul_sub, mul_one, ← Complex.exp_add]; push_cast; ring_nf
    rw [e0, norm_mul, Complex.norm_exp_ofReal_mul_I, one_mul]
    exact Real.norm_exp_I_mul_ofReal_sub_one_le
  have := norm_add_le ((⟨c.val (fcos x'), c.val (fsin x')⟩ : ℂ) - Complex.exp ((c.val x' : ℂ) * Complex.I))
    (Complex.exp ((c.val x' : ℂ) * Complex.I) - Complex.exp ((x : ℂ) * Complex.I))
  rw [sub_add_sub_cancel] at this
  linarith

theorem ku_le (k : ℕ) : k * c.u ≤ (1 + c.u) ^ k - 1 := by
  have := c.pow_add_ge 0 k
  rw [pow_zero, one_mul, zero_add] at this
  linarith

/-- `(cos x', -sin x')` -/
theorem Ap.cis_neg {x : ℝ} {x' : F} {B r : ℝ} (h : c.Rp x x' B r) (hB : B ≤ 7) (hr0 : 0 ≤ r) (hr : r ≤ 100)
    (hk : B * r + 3 ≤ k) : c.Ap (Complex.exp (-(x : ℂ) * Complex.I)) ![fcos x', fneg (fsin x')] 1 k := by
  obtain ⟨⟨fc, fs⟩, e⟩ := trig_ok h hB hr0 hr
  obtain ⟨fn, en⟩ := c.laws.neg _ fs
  refine ⟨m0_le_one, fun _ _ => ⟨⟨fc, fn⟩, ?_, ?_⟩⟩
  · rw [← Complex.ofReal_neg, Complex.norm_exp_ofReal_mul_I]
  · have e1 : c.cv ![fcos x', fneg (fsin x')] - Complex.exp (-(x : ℂ) * Complex.I) =
        (starRingEnd ℂ) ((⟨c.val (fcos x'), c.val (fsin x')⟩ : ℂ) - Complex.exp ((x : ℂ) * Complex.I)) := by
      rw [map_sub]
      congr 1
      · apply Complex.ext
        · rfl
        · exact en
      · rw [← Complex.exp_conj]; congr 1; simp
    rw [e1, Complex.norm_conj, one_mul]
    refine le_trans e (le_trans ?_ (ku_le k))
    exact mul_le_mul_of_nonneg_right hk c.u_nonneg

/-- `(cos x', sin x')` -/
theorem Ap.cis {x : ℝ} {x' : F} {B r : ℝ} (h : c.Rp x x' B r) (hB : B ≤ 7) (hr0 : 0 ≤ r) (hr : r ≤ 100)
    (hk : B * r + 3 ≤ k) : c.Ap (Complex.exp ((x : ℂ) * Complex.I)) ![fcos x', fsin x'] 1 k := by
  obtain ⟨⟨fc, fs⟩, e⟩ := trig_ok h hB hr0 hr
  refine ⟨m0_le_one, fun _ _ => ⟨⟨fc, fs⟩, ?_, ?_⟩⟩
  · rw [Complex.norm_exp_ofReal_mul_I]
  · rw [one_mul]
    exact le_trans e (le_trans (mul_le_mul_of_nonneg_right hk c.u_nonneg) (ku_le k))

/-- `expj(x')` -/
theorem Ap.expj {x : ℝ} {x' : F} {B r : ℝ} (h : c.Rp x x' B r) (hB : B ≤ 7) (hr0 : 0 ≤ r) (hr : r ≤ 100)
    (hk : B * r + 3 ≤ k) : c.Ap (Complex.exp ((x : ℂ) * Complex.I)) (Cpx.expj x') 1 (k + 2) := by
  obtain ⟨f1, e1⟩ := Rp.nat (c := c) 1 (by norm_num)
  have := Ap.scale_comp (s := 1) (s' := fofNat 1) (j := 0) (Ap.cis h hB hr0 hr hk) f1 zero_le_one one_le_two
    (by rw [e1]; simp) (le_trans (by norm_num) c.G_ge) (by rw [one_mul]; exact m0_le_one)
  simp only [Complex.ofReal_one, one_mul, Nat.add_zero] at this
  exact this

end Flt
end OTFFT
