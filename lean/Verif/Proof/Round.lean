/-
Rounding errors of the primitives.
-/
import Verif.Spec.Float
import Mathlib.Analysis.SpecialFunctions.Complex.Circle
import Mathlib.Tactic.Linarith
import Mathlib.Tactic.Positivity

namespace OTFFT

/-- a floating-point format with the range in which the error analysis works: magnitudes from `m0` to `G`, at most `K`
roundings on the way to any result -/
structure Flt (F : Type) [FArith F] where
  val : F → ℝ
  fin : F → Prop
  u : ℝ
  η : ℝ
  Ω : ℝ
  m0 : ℝ
  G : ℝ
  K : ℕ
  laws : FloatLaws F val fin u η Ω
  u_pos : 0 < u
  u_le : u ≤ 1 / 2 ^ 40
  η_nonneg : 0 ≤ η
  η_le : η ≤ u * m0 / 1000
  m0_pos : 0 < m0
  m0_le : m0 ≤ 1 / 2 ^ 40
  G_ge : 2 ^ 40 ≤ G
  G_le : 16 * G ≤ Ω
  pow_le : (1 + u) ^ K ≤ 2

section numbers

/-- component-wise relative error -/
theorem norm_le_of_comp {w z : ℂ} {u η : ℝ} (hu : 0 ≤ u) (hη : 0 ≤ η) (h0 : |w.re| ≤ u * |z.re| + η)
    (h1 : |w.im| ≤ u * |z.im| + η) : ‖w‖ ≤ u * ‖z‖ + 2 * η := by
  have hz := norm_nonneg z
  have a := Complex.abs_re_le_norm z
  have b := Complex.abs_im_le_norm z
  apply abs_le_of_sq_le_sq' _ (by positivity) |>.2
  have e : ‖w‖ ^ 2 = |w.re| ^ 2 + |w.im| ^ 2 := by
    rw [sq_abs, sq_abs, Complex.sq_norm, Complex.normSq_apply]; ring
  have e' : ‖z‖ ^ 2 = |z.re| ^ 2 + |z.im| ^ 2 := by
    rw [sq_abs, sq_abs, Complex.sq_norm, Complex.normSq_apply]; ring
  have p0 := pow_le_pow_left₀ (abs_nonneg _) h0 2
  have p1 := pow_le_pow_left₀ (abs_nonneg _) h1 2
  have q0 := mul_le_mul_of_nonneg_left a (mul_nonneg hu hη)
  have q1 := mul_le_mul_of_nonneg_left b (mul_nonneg hu hη)
  have : (u * |z.re| + η) ^ 2 + (u * |z.im| + η) ^ 2 ≤ (u * ‖z‖ + 2 * η) ^ 2 := by
    have : (u * ‖z‖ + 2 * η) ^ 2 = u ^ 2 * (|z.re| ^ 2 + |z.im| ^ 2) + 4 * (u * η * ‖z‖) + 4 * η ^ 2 := by
      rw [← e']; ring
    rw [this]
    nlinarith [sq_nonneg η]
  linarith

/-- both components bounded -/
theorem norm_le_of_abs {w : ℂ} {A : ℝ} (h0 : |w.re| ≤ A) (h1 : |w.im| ≤ A) : ‖w‖ ≤ 3 / 2 * A := by
  have hA : 0 ≤ A := le_trans (abs_nonneg _) h0
  apply abs_le_of_sq_le_sq' _ (by positivity) |>.2
  have e : ‖w‖ ^ 2 = |w.re| ^ 2 + |w.im| ^ 2 := by
    rw [sq_abs, sq_abs, Complex.sq_norm, Complex.normSq_apply]; ring
  have p0 := pow_le_pow_left₀ (abs_nonneg _) h0 2
  have p1 := pow_le_pow_left₀ (abs_nonneg _) h1 2
  nlinarith [sq_nonneg A]

/-- Cauchy-Schwarz for the two products in a complex multiplication -/
theorem abs_mul_add_le (a b c d : ℝ) (x y : ℂ) (h1 : a ^ 2 + c ^ 2 = ‖x‖ ^ 2) (h2 : b ^ 2 + d ^ 2 = ‖y‖ ^ 2) :
    |a * b| + |c * d| ≤ ‖x‖ * ‖y‖ := by
  apply abs_le_of_sq_le_sq' _ (by positivity) |>.2
  rw [mul_pow, ← h1, ← h2, abs_mul, abs_mul]
  have := sq_nonneg (|a| * |d| - |c| * |b|)
  have ha := sq_abs a
  have hb := sq_abs b
  have hc := sq_abs c
  have hd := sq_abs d
  rw [← ha, ← hb, ← hc, ← hd]
  nlinarith

end numbers

namespace Flt
variable {F : Type} [FArith F] (c : Flt F)

theorem u_nonneg : 0 ≤ c.u := c.u_pos.le

theorem one_le_pow (k : ℕ) : 1 ≤ (1 + c.u) ^ k := one_le_pow₀ (by linarith [c.u_pos])

theorem pow_le_two {k : ℕ} (h : k ≤ c.K) : (1 + c.u) ^ k ≤ 2 :=
  le_trans (pow_le_pow_right₀ (by linarith [c.u_pos]) h) c.pow_le

theorem pow_mono {k l : ℕ} (h : k ≤ l) : (1 + c.u) ^ k ≤ (1 + c.u) ^ l :=
  pow_le_pow_right₀ (by linarith [c.u_pos]) h

/-- Bernoulli -/
theorem pow_add_ge (k j : ℕ) : (1 + c.u) ^ k * (1 + j * c.u) ≤ (1 + c.u) ^ (k + j) := by
  rw [pow_add]
  exact mul_le_mul_of_nonneg_left (one_add_mul_le_pow (by linarith [c.u_pos]) j) (by linarith [c.one_le_pow k])

theorem G_pos : 0 < c.G := lt_of_lt_of_le (by norm_num) c.G_ge

theorem η_le_of {M : ℝ} (h : c.m0 ≤ M) : c.η ≤ c.u * M / 1000 :=
  le_trans c.η_le (by have := mul_le_mul_of_nonneg_left h c.u_nonneg; linarith)

/-- the value of a pair of doubles -/
abbrev cv (a : Xmm F) : ℂ := cval c.val a

/-- `a'` is a computed value of `a`: if the magnitudes stay in range, `a'` is finite, `M` bounds `a`, and `a'` is off by
at most what `k` roundings of `M` add up to. -/
def Ap (a : ℂ) (a' : Xmm F) (M : ℝ) (k : ℕ) : Prop :=
  c.m0 ≤ M ∧ (M ≤ c.G → k ≤ c.K → cfin c.fin a' ∧ ‖a‖ ≤ M ∧ ‖c.cv a' - a‖ ≤ M * ((1 + c.u) ^ k - 1))

variable {c} {a b : ℂ} {a' b' : Xmm F} {M M' M1 M2 : ℝ} {k k' k1 k2 : ℕ}

theorem Ap.pos (h : c.Ap a a' M k) : c.m0 ≤ M := h.1

theorem Ap.nonneg (h : c.Ap a a' M k) : 0 ≤ M := le_trans c.m0_pos.le h.1

theorem Ap.mono (h : c.Ap a a' M k) (hM : M ≤ M') (hk : k ≤ k') : c.Ap a a' M' k' := by
  refine ⟨le_trans h.1 hM, fun h1 h2 => ?_⟩
  obtain ⟨f, n, e⟩ := h.2 (le_trans hM h1) (le_trans hk h2)
  refine ⟨f, le_trans n hM, le_trans e ?_⟩
  have := c.pow_mono hk
  have := c.one_le_pow k
  exact mul_le_mul hM (by linarith) (by linarith) (le_trans h.nonneg hM)

/-- the computed value is at most `M(1+u)^k` -/
theorem norm_computed {a : ℂ} {z : ℂ} {M : ℝ} {k : ℕ} (n : ‖a‖ ≤ M) (e : ‖z - a‖ ≤ M * ((1 + c.u) ^ k - 1)) :
    ‖z‖ ≤ M * (1 + c.u) ^ k := by
  have : ‖z‖ ≤ ‖z - a‖ + ‖a‖ := by
    have := norm_add_le (z - a) a
    rwa [sub_add_cancel] at this
  linarith

/-- one more rounded operation: if the exact operation on the computed operands is within `M((1+u)^k-1)` of the exact
value and the rounding error is at most `M(1+u)^k·j·u`, `j` steps are added -/
theorem step {z z' x : ℂ} {M : ℝ} {k j : ℕ} (hM : 0 ≤ M) (h1 : ‖x - z‖ ≤ M * ((1 + c.u) ^ k - 1))
    (h2 : ‖z' - x‖ ≤ M * (1 + c.u) ^ k * (j * c.u)) : ‖z' - z‖ ≤ M * ((1 + c.u) ^ (k + j) - 1) := by
  have := norm_add_le (z' - x) (x - z)
  rw [sub_add_sub_cancel] at this
  have := mul_le_mul_of_nonneg_left (c.pow_add_ge k j) hM
  nlinarith

theorem re_le (z : ℂ) {A : ℝ} (h : ‖z‖ ≤ A) : |z.re| ≤ A := le_trans (Complex.abs_re_le_norm z) h
theorem im_le (z : ℂ) {A : ℝ} (h : ‖z‖ ≤ A) : |z.im| ≤ A := le_trans (Complex.abs_im_le_norm z) h

/-- sums -/
theorem Ap.add_comp (ha : c.Ap a a' M1 k1) (hb : c.Ap b b' M2 k2) :
    c.Ap (a + b) ![fadd (a' 0) (b' 0), fadd (a' 1) (b' 1)] (M1 + M2) (max k1 k2 + 1) := by
  have m1 := ha.nonneg
  have m2 := hb.nonneg
  refine ⟨by linarith [ha.1], fun h1 h2 => ?_⟩
  have hk : max k1 k2 ≤ c.K := by omega
  have ha' := (ha.mono le_rfl (le_max_left k1 k2)).2 (by linarith) hk
  have hb' := (hb.mono le_rfl (le_max_right k1 k2)).2 (by linarith) hk
  generalize max k1 k2 = k at *
  obtain ⟨fa, na, ea⟩ := ha'
  obtain ⟨fb, nb, eb⟩ := hb'
  have p2 := c.pow_le_two hk
  have p1 := c.one_le_pow k
  have hn : ‖a + b‖ ≤ M1 + M2 := le_trans (norm_add_le _ _) (by linarith)
  have he : ‖c.cv a' + c.cv b' - (a + b)‖ ≤ (M1 + M2) * ((1 + c.u) ^ k - 1) := by
    have := norm_add_le (c.cv a' - a) (c.cv b' - b)
    rw [show c.cv a' + c.cv b' - (a + b) = (c.cv a' - a) + (c.cv b' - b) by ring]
    linarith
  have hc := norm_computed hn he
  have hΩ : ‖c.cv a' + c.cv b'‖ ≤ c.Ω := by
    have := c.G_le
    nlinarith [c.G_pos]
  obtain ⟨f0, e0⟩ := c.laws.add (a' 0) (b' 0) fa.1 fb.1 (re_le (c.cv a' + c.cv b') hΩ)
  obtain ⟨f1, e1⟩ := c.laws.add (a' 1) (b' 1) fa.2 fb.2 (im_le (c.cv a' + c.cv b') hΩ)
  refine ⟨⟨f0, f1⟩, hn, step (by linarith) he ?_⟩
  have := norm_le_of_comp (w := c.cv ![fadd (a' 0) (b' 0), fadd (a' 1) (b' 1)] - (c.cv a' + c.cv b'))
    (z := c.cv a' + c.cv b') (η := 0) c.u_nonneg le_rfl (by rw [add_zero]; exact e0) (by rw [add_zero]; exact e1)
  have := mul_le_mul_of_nonneg_left hc c.u_nonneg
  push_cast
  linarith

/-- differences -/
theorem Ap.sub_comp (ha : c.Ap a a' M1 k1) (hb : c.Ap b b' M2 k2) :
    c.Ap (a - b) ![fsub (a' 0) (b' 0), fsub (a' 1) (b' 1)] (M1 + M2) (max k1 k2 + 1) := by
  have m1 := ha.nonneg
  have m2 := hb.nonneg
  refine ⟨by linarith [ha.1], fun h1 h2 => ?_⟩
  have hk : max k1 k2 ≤ c.K := by omega
  have ha' := (ha.mono le_rfl (le_max_left k1 k2)).2 (by linarith) hk
  have hb' := (hb.mono le_rfl (le_max_right k1 k2)).2 (by linarith) hk
  generalize max k1 k2 = k at *
  obtain ⟨fa, na, ea⟩ := ha'
  obtain ⟨fb, nb, eb⟩ := hb'
  have p2 := c.pow_le_two hk
  have p1 := c.one_le_pow k
  have hn : ‖a - b‖ ≤ M1 + M2 := le_trans (norm_sub_le _ _) (by linarith)
  have he : ‖c.cv a' - c.cv b' - (a - b)‖ ≤ (M1 + M2) * ((1 + c.u) ^ k - 1) := by
    have := norm_sub_le (c.cv a' - a) (c.cv b' - b)
    rw [show c.cv a' - c.cv b' - (a - b) = (c.cv a' - a) - (c.cv b' - b) by ring]
    linarith
  have hc := norm_computed hn he
  have hΩ : ‖c.cv a' - c.cv b'‖ ≤ c.Ω := by
    have := c.G_le
    nlinarith [c.G_pos]
  obtain ⟨f0, e0⟩ := c.laws.sub (a' 0) (b' 0) fa.1 fb.1 (re_le (c.cv a' - c.cv b') hΩ)
  obtain ⟨f1, e1⟩ := c.laws.sub (a' 1) (b' 1) fa.2 fb.2 (im_le (c.cv a' - c.cv b') hΩ)
  refine ⟨⟨f0, f1⟩, hn, step (by linarith) he ?_⟩
  have := norm_le_of_comp (w := c.cv ![fsub (a' 0) (b' 0), fsub (a' 1) (b' 1)] - (c.cv a' - c.cv b'))
    (z := c.cv a' - c.cv b') (η := 0) c.u_nonneg le_rfl (by rw [add_zero]; exact e0) (by rw [add_zero]; exact e1)
  have := mul_le_mul_of_nonneg_left hc c.u_nonneg
  push_cast
  linarith

theorem Ap.conj_comp (ha : c.Ap a a' M k) : c.Ap ((starRingEnd ℂ) a) ![a' 0, fneg (a' 1)] M k := by
  refine ⟨ha.1, fun h1 h2 => ?_⟩
  obtain ⟨f, n, e⟩ := ha.2 h1 h2
  obtain ⟨f1, e1⟩ := c.laws.neg (a' 1) f.2
  have hcv : c.cv ![a' 0, fneg (a' 1)] = (starRingEnd ℂ) (c.cv a') := by
    apply Complex.ext
    · rfl
    · exact e1
  refine ⟨⟨f.1, f1⟩, by rwa [Complex.norm_conj], ?_⟩
  rw [hcv, ← map_sub, Complex.norm_conj]
  exact e

theorem Ap.jx_comp (ha : c.Ap a a' M k) : c.Ap (Complex.I * a) ![fneg (a' 1), a' 0] M k := by
  refine ⟨ha.1, fun h1 h2 => ?_⟩
  obtain ⟨f, n, e⟩ := ha.2 h1 h2
  obtain ⟨f1, e1⟩ := c.laws.neg (a' 1) f.2
  have hcv : c.cv ![fneg (a' 1), a' 0] = Complex.I * (c.cv a') := by
    apply Complex.ext
    · simp only [Complex.mul_re, Complex.I_re, Complex.I_im, zero_mul, one_mul, zero_sub]; exact e1
    · simp only [Complex.mul_im, Complex.I_re, Complex.I_im, zero_mul, one_mul, zero_add]; rfl
  refine ⟨⟨f1, f.1⟩, by rwa [norm_mul, Complex.norm_I, one_mul], ?_⟩
  rw [hcv, ← mul_sub, norm_mul, Complex.norm_I, one_mul]
  exact e

/-! ### products -/

variable (c) in
/-- `t` is a computed value of `x`, a sum of two products of total magnitude at most `P` -/
def Two (P x : ℝ) (t : F) : Prop := c.fin t ∧ |c.val t - x| ≤ 201 / 100 * c.u * P + 4 * c.η

theorem abs_le_add (x y : ℝ) : |x| ≤ |x - y| + |y| := by
  have := abs_add_le (x - y) y
  rwa [sub_add_cancel] at this

/-- combination of two products, the second rounded (error `e2`), the first with error `e1`, then rounded -/
theorem two_aux {P p1 p2 q1 q2 s t : ℝ} (hP : |p1| + |p2| ≤ P) (h1 : |q1 - p1| ≤ c.u * |p1| + c.η)
    (h2 : |q2 - p2| ≤ c.u * |p2| + c.η) (hs : s = q1 + q2) (ht : |t - s| ≤ c.u * |s| + c.η) :
    |t - (p1 + p2)| ≤ 201 / 100 * c.u * P + 4 * c.η := by
  subst hs
  have hu := c.u_nonneg
  have hu' : c.u ≤ 1 / 1000 := le_trans c.u_le (by norm_num)
  have a1 := abs_add_le (q1 - p1) (q2 - p2)
  have a2 := abs_le_add (q1 + q2) (p1 + p2)
  have a3 := abs_add_le p1 p2
  have a4 := abs_add_le (t - (q1 + q2)) ((q1 - p1) + (q2 - p2))
  rw [show (q1 + q2) - (p1 + p2) = (q1 - p1) + (q2 - p2) by ring] at a2
  rw [show t - (q1 + q2) + ((q1 - p1) + (q2 - p2)) = t - (p1 + p2) by ring] at a4
  have hη := c.η_nonneg
  have hP0 : 0 ≤ P := le_trans (by positivity) hP
  have hE : |(q1 - p1) + (q2 - p2)| ≤ c.u * P + 2 * c.η := by nlinarith
  have hS : |q1 + q2| ≤ P + c.u * P + 2 * c.η := by linarith
  have : c.u * |q1 + q2| ≤ c.u * (P + c.u * P + 2 * c.η) := mul_le_mul_of_nonneg_left hS hu
  have : c.u * (c.u * P) ≤ 1 / 1000 * (c.u * P) := mul_le_mul_of_nonneg_right hu' (by positivity)
  have : c.u * c.η ≤ 1 / 1000 * c.η := mul_le_mul_of_nonneg_right hu' hη
  nlinarith

section two
variable {P : ℝ} {p q r s : F}

/-- products of finite doubles -/
theorem prod_rnd (hp : c.fin p) (hq : c.fin q) (h : |c.val p * c.val q| ≤ c.Ω) :
    c.fin (fmul p q) ∧ |c.val (fmul p q) - c.val p * c.val q| ≤ c.u * |c.val p * c.val q| + c.η :=
  c.laws.mul p q hp hq h

/-- a computed product is at most twice as large plus one -/
theorem prod_size {x y : ℝ} (h : |x - y| ≤ c.u * |y| + c.η) : |x| ≤ 2 * |y| + 1 := by
  have hu' : c.u ≤ 1 := le_trans c.u_le (by norm_num)
  have := abs_le_add x y
  have : c.u * |y| ≤ |y| := by
    have := mul_le_mul_of_nonneg_right hu' (abs_nonneg y)
    linarith
  have : c.η ≤ 1 := by
    refine le_trans c.η_le ?_
    have := mul_le_mul hu' (le_trans c.m0_le (by norm_num : (1:ℝ) / 2 ^ 40 ≤ 1)) c.m0_pos.le zero_le_one
    linarith
  linarith

variable (hp : c.fin p) (hq : c.fin q) (hr : c.fin r) (hs : c.fin s)
  (hP : |c.val p * c.val q| + |c.val r * c.val s| ≤ P) (hPG : P ≤ 4 * c.G)

include hp hq hr hs hP hPG

theorem two_range : |c.val p * c.val q| ≤ 4 * c.G ∧ |c.val r * c.val s| ≤ 4 * c.G ∧
    |c.val p * c.val q| ≤ c.Ω ∧ |c.val r * c.val s| ≤ c.Ω := by
  have := abs_nonneg (c.val p * c.val q)
  have := abs_nonneg (c.val r * c.val s)
  have := c.G_le
  have := c.G_pos
  exact ⟨by linarith, by linarith, by linarith, by linarith⟩

theorem two_add : c.Two P (c.val p * c.val q + c.val r * c.val s) (fadd (fmul p q) (fmul r s)) := by
  obtain ⟨r1, r2, o1, o2⟩ := two_range hp hq hr hs hP hPG
  obtain ⟨f1, e1⟩ := c.laws.mul p q hp hq o1
  obtain ⟨f2, e2⟩ := c.laws.mul r s hr hs o2
  have z1 := prod_size e1
  have z2 := prod_size e2
  have hb : |c.val (fmul p q) + c.val (fmul r s)| ≤ c.Ω := by
    have := abs_add_le (c.val (fmul p q)) (c.val (fmul r s))
    have := c.G_le
    have : (2:ℝ) ^ 40 ≤ c.G := c.G_ge
    norm_num at this
    linarith
  obtain ⟨f, e⟩ := c.laws.add _ _ f1 f2 hb
  exact ⟨f, two_aux hP e1 e2 rfl (by linarith [c.η_nonneg])⟩

theorem two_sub : c.Two P (c.val p * c.val q - c.val r * c.val s) (fsub (fmul p q) (fmul r s)) := by
  obtain ⟨r1, r2, o1, o2⟩ := two_range hp hq hr hs hP hPG
  obtain ⟨f1, e1⟩ := c.laws.mul p q hp hq o1
  obtain ⟨f2, e2⟩ := c.laws.mul r s hr hs o2
  have z1 := prod_size e1
  have z2 := prod_size e2
  have hb : |c.val (fmul p q) - c.val (fmul r s)| ≤ c.Ω := by
    have := abs_sub (c.val (fmul p q)) (c.val (fmul r s))
    have := c.G_le
    have : (2:ℝ) ^ 40 ≤ c.G := c.G_ge
    norm_num at this
    linarith
  obtain ⟨f, e⟩ := c.laws.sub _ _ f1 f2 hb
  refine ⟨f, ?_⟩
  rw [sub_eq_add_neg (c.val p * c.val q)]
  refine two_aux (q1 := c.val (fmul p q)) (q2 := - c.val (fmul r s)) (by rwa [abs_neg]) e1 ?_ rfl
    (by rw [← sub_eq_add_neg]; linarith [c.η_nonneg])
  rw [neg_sub_neg, abs_sub_comm, abs_neg]
  exact e2

theorem two_fma : c.Two P (c.val p * c.val q + c.val r * c.val s) (ffma p q (fmul r s)) := by
  obtain ⟨r1, r2, o1, o2⟩ := two_range hp hq hr hs hP hPG
  obtain ⟨f2, e2⟩ := c.laws.mul r s hr hs o2
  have z2 := prod_size e2
  have hb : |c.val p * c.val q + c.val (fmul r s)| ≤ c.Ω := by
    have := abs_add_le (c.val p * c.val q) (c.val (fmul r s))
    have := c.G_le
    have : (2:ℝ) ^ 40 ≤ c.G := c.G_ge
    norm_num at this
    linarith
  obtain ⟨f, e⟩ := c.laws.fma p q _ hp hq f2 hb
  exact ⟨f, two_aux hP (q1 := c.val p * c.val q)
    (by rw [sub_self, abs_zero]; exact add_nonneg (mul_nonneg c.u_nonneg (abs_nonneg _)) c.η_nonneg) e2 rfl e⟩

theorem two_fms : c.Two P (c.val p * c.val q - c.val r * c.val s) (ffms p q (fmul r s)) := by
  obtain ⟨r1, r2, o1, o2⟩ := two_range hp hq hr hs hP hPG
  obtain ⟨f2, e2⟩ := c.laws.mul r s hr hs o2
  have z2 := prod_size e2
  have hb : |c.val p * c.val q - c.val (fmul r s)| ≤ c.Ω := by
    have := abs_sub (c.val p * c.val q) (c.val (fmul r s))
    have := c.G_le
    have : (2:ℝ) ^ 40 ≤ c.G := c.G_ge
    norm_num at this
    linarith
  obtain ⟨f, e⟩ := c.laws.fms p q _ hp hq f2 hb
  refine ⟨f, ?_⟩
  rw [sub_eq_add_neg (c.val p * c.val q)]
  refine two_aux (q1 := c.val p * c.val q) (q2 := - c.val (fmul r s)) (by rwa [abs_neg])
    (by rw [sub_self, abs_zero]; exact add_nonneg (mul_nonneg c.u_nonneg (abs_nonneg _)) c.η_nonneg) ?_ rfl
    (by rw [← sub_eq_add_neg]; exact e)
  rw [neg_sub_neg, abs_sub_comm, abs_neg]
  exact e2

end two

variable (c) in
/-- a complex multiplication: each part is a computed sum of two products -/
def MulOK (f : Xmm F → Xmm F → Xmm F) : Prop :=
  ∀ (a b : Xmm F) (P : ℝ), cfin c.fin a → cfin c.fin b → ‖c.cv a‖ * ‖c.cv b‖ ≤ P → P ≤ 4 * c.G →
    c.Two P (c.cv a * c.cv b).re (f a b 0) ∧ c.Two P (c.cv a * c.cv b).im (f a b 1)

theorem parts (a : Xmm F) : c.val (a 0) ^ 2 + c.val (a 1) ^ 2 = ‖c.cv a‖ ^ 2 := by
  rw [Complex.sq_norm, Complex.normSq_apply]; simp only [cv, cval]; ring

theorem Ap.mul_comp {f : Xmm F → Xmm F → Xmm F} (hf : c.MulOK f) (ha : c.Ap a a' M1 k1) (hb : c.Ap b b' M2 k2)
    (h1 : M1 ≤ c.G) (h2 : M2 ≤ c.G) (h : c.m0 ≤ M1 * M2) : c.Ap (a * b) (f a' b') (M1 * M2) (k1 + k2 + 4) := by
  refine ⟨h, fun h3 h4 => ?_⟩
  have m1 := ha.nonneg
  have m2 := hb.nonneg
  have m12 := mul_nonneg m1 m2
  obtain ⟨fa, na, ea⟩ := ha.2 h1 (by omega)
  obtain ⟨fb, nb, eb⟩ := hb.2 h2 (by omega)
  have hk : k1 + k2 ≤ c.K := by omega
  have p2 := c.pow_le_two hk
  have q1 := c.one_le_pow k1
  have q2 := c.one_le_pow k2
  have ca := norm_computed na ea
  have cb := norm_computed nb eb
  have hn : ‖a * b‖ ≤ M1 * M2 := by
    rw [norm_mul]; exact mul_le_mul na nb (norm_nonneg _) m1
  have hP : ‖c.cv a'‖ * ‖c.cv b'‖ ≤ M1 * M2 * (1 + c.u) ^ (k1 + k2) := by
    rw [pow_add]
    calc _ ≤ (M1 * (1 + c.u) ^ k1) * (M2 * (1 + c.u) ^ k2) := mul_le_mul ca cb (norm_nonneg _) (by positivity)
      _ = _ := by ring
  have he : ‖c.cv a' * c.cv b' - a * b‖ ≤ M1 * M2 * ((1 + c.u) ^ (k1 + k2) - 1) := by
    have e : c.cv a' * c.cv b' - a * b = (c.cv a' - a) * c.cv b' + a * (c.cv b' - b) := by ring
    rw [e, pow_add]
    refine le_trans (norm_add_le _ _) ?_
    rw [norm_mul, norm_mul]
    have e1 : ‖c.cv a' - a‖ * ‖c.cv b'‖ ≤ (M1 * ((1 + c.u) ^ k1 - 1)) * (M2 * (1 + c.u) ^ k2) :=
      mul_le_mul ea cb (norm_nonneg _) (mul_nonneg m1 (by linarith))
    have e2 : ‖a‖ * ‖c.cv b' - b‖ ≤ M1 * (M2 * ((1 + c.u) ^ k2 - 1)) := mul_le_mul na eb (norm_nonneg _) m1
    refine le_trans (add_le_add e1 e2) (le_of_eq ?_)
    ring
  have hG := c.G_pos
  have hPG : M1 * M2 * (1 + c.u) ^ (k1 + k2) ≤ 4 * c.G := by nlinarith
  obtain ⟨⟨f0, e0⟩, ⟨f1, e1⟩⟩ := hf a' b' _ fa fb hP hPG
  refine ⟨⟨f0, f1⟩, hn, step m12 he ?_⟩
  have := norm_le_of_abs (w := c.cv (f a' b') - c.cv a' * c.cv b') e0 e1
  refine le_trans this ?_
  have hη := c.η_le_of h
  have hM : M1 * M2 ≤ M1 * M2 * (1 + c.u) ^ (k1 + k2) := le_mul_of_one_le_right m12 (c.one_le_pow _)
  have := mul_le_mul_of_nonneg_left hM c.u_nonneg
  have := mul_nonneg c.u_nonneg m12
  push_cast
  nlinarith

theorem mulOK_noSse : c.MulOK NoSse.mulpz := by
  intro a b P fa fb hP hG
  have h1 := parts (c := c) a
  have h2 := parts (c := c) b
  exact ⟨two_sub fa.1 fb.1 fa.2 fb.2 (le_trans (abs_mul_add_le _ _ _ _ _ _ h1 h2) hP) hG,
    two_add fa.1 fb.2 fa.2 fb.1 (le_trans (abs_mul_add_le _ _ _ _ _ _ h1 (by rw [add_comm]; exact h2)) hP) hG⟩

theorem mulOK_cpx : c.MulOK Cpx.mul := mulOK_noSse

theorem mulOK_sse2 : c.MulOK Sse2.mulpz := by
  intro a b P fa fb hP hG
  have h1 := parts (c := c) a
  have h2 := parts (c := c) b
  obtain ⟨fn, en⟩ := c.laws.neg (b 1) fb.2
  refine ⟨?_, two_add fa.1 fb.2 fa.2 fb.1 (le_trans (abs_mul_add_le _ _ _ _ _ _ h1 (by rw [add_comm]; exact h2)) hP) hG⟩
  have := two_add (P := P) fa.1 fb.1 fa.2 fn
    (le_trans (abs_mul_add_le _ _ _ _ _ _ h1 (by rw [en, neg_sq]; exact h2)) hP) hG
  rw [en, mul_neg, ← sub_eq_add_neg] at this
  exact this

theorem mulOK_sse3 (fma : Bool) : c.MulOK (Sse3.mulpz fma) := by
  intro a b P fa fb hP hG
  have h1 := parts (c := c) a
  have h2 := parts (c := c) b
  cases fma
  · exact ⟨two_sub fa.1 fb.1 fa.2 fb.2 (le_trans (abs_mul_add_le _ _ _ _ _ _ h1 h2) hP) hG,
      two_add fa.1 fb.2 fa.2 fb.1 (le_trans (abs_mul_add_le _ _ _ _ _ _ h1 (by rw [add_comm]; exact h2)) hP) hG⟩
  · exact ⟨two_fms fa.1 fb.1 fa.2 fb.2 (le_trans (abs_mul_add_le _ _ _ _ _ _ h1 h2) hP) hG,
      two_fma fa.1 fb.2 fa.2 fb.1 (le_trans (abs_mul_add_le _ _ _ _ _ _ h1 (by rw [add_comm]; exact h2)) hP) hG⟩

theorem mulOK_target (i : Target) : c.MulOK (i.xmm F).mulpz := by
  unfold Target.xmm
  split
  · split
    · exact mulOK_sse3 _
    · exact mulOK_sse2
  · exact mulOK_noSse

/-! ### real factors -/

/-- multiplication by a computed real factor -/
theorem raw_scale {z : ℂ} {t : Xmm F} {s : ℝ} {s' : F} {j : ℕ} (ft : cfin c.fin t) (n : ‖z‖ ≤ M)
    (e : ‖c.cv t - z‖ ≤ M * ((1 + c.u) ^ k - 1)) (fs : c.fin s') (hs0 : 0 ≤ s) (hs1 : s ≤ 2)
    (es : |c.val s' - s| ≤ s * (j * c.u)) (hM : M ≤ 2 * c.G) (hm : c.m0 ≤ s * M) (hk : k + j ≤ c.K) :
    cfin c.fin ![fmul s' (t 0), fmul s' (t 1)] ∧ ‖(s : ℂ) * z‖ ≤ s * M ∧
      ‖c.cv ![fmul s' (t 0), fmul s' (t 1)] - s * z‖ ≤ s * M * ((1 + c.u) ^ (k + j + 2) - 1) := by
  have hM0 : 0 ≤ M := le_trans (norm_nonneg _) n
  have p1 := c.one_le_pow k
  have hsM : 0 ≤ s * M := mul_nonneg hs0 hM0
  have hn : ‖(s : ℂ) * z‖ ≤ s * M := by
    rw [norm_mul, Complex.norm_real, Real.norm_eq_abs, abs_of_nonneg hs0]
    exact mul_le_mul_of_nonneg_left n hs0
  have hj : 0 ≤ (j : ℝ) * c.u := mul_nonneg (Nat.cast_nonneg _) c.u_nonneg
  have hsv : |c.val s'| ≤ s * (1 + j * c.u) := by
    have := abs_le_add (c.val s') s
    rw [abs_of_nonneg hs0] at this
    linarith
  have he : ‖(c.val s' : ℂ) * c.cv t - s * z‖ ≤ s * M * ((1 + c.u) ^ (k + j) - 1) := by
    have e0 : (c.val s' : ℂ) * c.cv t - s * z = (c.val s' : ℂ) * (c.cv t - z) + ((c.val s' - s : ℝ) : ℂ) * z := by
      push_cast; ring
    rw [e0]
    refine le_trans (norm_add_le _ _) ?_
    rw [norm_mul, norm_mul, Complex.norm_real, Complex.norm_real, Real.norm_eq_abs, Real.norm_eq_abs]
    have e1 : |c.val s'| * ‖c.cv t - z‖ ≤ (s * (1 + j * c.u)) * (M * ((1 + c.u) ^ k - 1)) :=
      mul_le_mul hsv e (norm_nonneg _) (by positivity)
    have e2 : |c.val s' - s| * ‖z‖ ≤ (s * (j * c.u)) * M := mul_le_mul es n (norm_nonneg _) (by positivity)
    have e3 := mul_le_mul_of_nonneg_left (c.pow_add_ge k j) hsM
    calc _ ≤ (s * (1 + j * c.u)) * (M * ((1 + c.u) ^ k - 1)) + (s * (j * c.u)) * M := add_le_add e1 e2
      _ = s * M * ((1 + c.u) ^ k * (1 + j * c.u)) - s * M := by ring
      _ ≤ _ := by linarith
  have hc := norm_computed hn he
  have p2 := c.pow_le_two hk
  have hG := c.G_pos
  have hΩ : ‖(c.val s' : ℂ) * c.cv t‖ ≤ c.Ω := by
    have := c.G_le
    have : s * M ≤ 4 * c.G := by nlinarith
    nlinarith [c.one_le_pow (k + j)]
  have r0 : ((c.val s' : ℂ) * c.cv t).re = c.val s' * c.val (t 0) := by
    rw [Complex.re_ofReal_mul]; rfl
  have r1 : ((c.val s' : ℂ) * c.cv t).im = c.val s' * c.val (t 1) := by
    rw [Complex.im_ofReal_mul]; rfl
  obtain ⟨f0, e0⟩ := c.laws.mul s' (t 0) fs ft.1 (by rw [← r0]; exact re_le _ hΩ)
  obtain ⟨f1, e1⟩ := c.laws.mul s' (t 1) fs ft.2 (by rw [← r1]; exact im_le _ hΩ)
  refine ⟨⟨f0, f1⟩, hn, step hsM he ?_⟩
  have := norm_le_of_comp (w := c.cv ![fmul s' (t 0), fmul s' (t 1)] - (c.val s' : ℂ) * c.cv t)
    (z := (c.val s' : ℂ) * c.cv t) c.u_nonneg c.η_nonneg
    (by rw [Complex.sub_re, r0]; exact e0) (by rw [Complex.sub_im, r1]; exact e1)
  have h3 := mul_le_mul_of_nonneg_left hc c.u_nonneg
  have hη := c.η_le_of hm
  have hMp : s * M ≤ s * M * (1 + c.u) ^ (k + j) := le_mul_of_one_le_right hsM (c.one_le_pow _)
  have := mul_le_mul_of_nonneg_left hMp c.u_nonneg
  have := mul_nonneg c.u_nonneg hsM
  push_cast
  linarith

theorem Ap.scale_comp {s : ℝ} {s' : F} {j : ℕ} (ha : c.Ap a a' M k) (fs : c.fin s') (hs0 : 0 ≤ s) (hs1 : s ≤ 2)
    (es : |c.val s' - s| ≤ s * (j * c.u)) (hM : M ≤ c.G) (hm : c.m0 ≤ s * M) :
    c.Ap (s * a) ![fmul s' (a' 0), fmul s' (a' 1)] (s * M) (k + j + 2) := by
  refine ⟨hm, fun _ h2 => ?_⟩
  obtain ⟨f, n, e⟩ := ha.2 hM (by omega)
  exact raw_scale f n e fs hs0 hs1 es (by linarith [c.G_pos]) hm (by omega)

/-! ### multiplication by eighth roots of unity -/

theorem sqrt2_bounds : (1.41:ℝ) ≤ √2 ∧ √2 ≤ 1.42 := by
  constructor
  · apply Real.le_sqrt_of_sq_le; norm_num
  · rw [Real.sqrt_le_left (by norm_num)]; norm_num

/-- `t` is `r·a'` with each part rounded, `r` one of `1+i`, `1-i` -/
theorem Ap.rot_comp {r : ℂ} {t : Xmm F} (hr : ‖r‖ = √2) (ha : c.Ap a a' M k)
    (ht : cfin c.fin a' → ‖c.cv a'‖ ≤ 2 * c.G → cfin c.fin t ∧
      |c.val (t 0) - (r * c.cv a').re| ≤ c.u * |(r * c.cv a').re| ∧
      |c.val (t 1) - (r * c.cv a').im| ≤ c.u * |(r * c.cv a').im|) :
    c.Ap (((√2 / 2 : ℝ) : ℂ) * (r * a)) ![fmul sqrt1_2 (t 0), fmul sqrt1_2 (t 1)] M (k + 4) := by
  refine ⟨ha.1, fun h1 h2 => ?_⟩
  obtain ⟨f, n, e⟩ := ha.2 h1 (by omega)
  have hM := ha.nonneg
  have p2 := c.pow_le_two (k := k) (by omega)
  have hc := norm_computed n e
  obtain ⟨ft, e0, e1⟩ := ht f (by nlinarith [c.one_le_pow k])
  obtain ⟨s1, s2⟩ := sqrt2_bounds
  have hn : ‖r * a‖ ≤ √2 * M := by rw [norm_mul, hr]; exact mul_le_mul_of_nonneg_left n (by positivity)
  have he : ‖r * c.cv a' - r * a‖ ≤ √2 * M * ((1 + c.u) ^ k - 1) := by
    rw [← mul_sub, norm_mul, hr, mul_assoc]; exact mul_le_mul_of_nonneg_left e (by positivity)
  have he' : ‖c.cv t - r * a‖ ≤ √2 * M * ((1 + c.u) ^ (k + 1) - 1) := by
    refine step (by positivity) he ?_
    have := norm_le_of_comp (w := c.cv t - r * c.cv a') (z := r * c.cv a') (η := 0) c.u_nonneg le_rfl
      (by rw [add_zero]; exact e0) (by rw [add_zero]; exact e1)
    refine le_trans this ?_
    have := mul_le_mul_of_nonneg_left (norm_computed hn he) c.u_nonneg
    push_cast
    linarith
  have hsq : √2 / 2 * (√2 * M) = M := by
    have : √2 * √2 = 2 := Real.mul_self_sqrt (by norm_num)
    linear_combination M / 2 * this
  have := raw_scale (j := 1) (s := √2 / 2) ft hn he' c.laws.sqrt1_2.1 (by positivity) (by linarith)
    (by have := c.laws.sqrt1_2.2; push_cast; linarith) (by nlinarith [c.G_pos]) (by rw [hsq]; exact ha.1) (by omega)
  rw [hsq] at this
  exact this

theorem exp_pi4 : Complex.exp (Complex.I * (Real.pi / 4)) = ((√2 / 2 : ℝ) : ℂ) * ⟨1, 1⟩ := by
  rw [show Complex.I * ((Real.pi : ℂ) / 4) = ((Real.pi / 4 : ℝ) : ℂ) * Complex.I by push_cast; ring]
  apply Complex.ext
  · rw [Complex.exp_ofReal_mul_I_re, Complex.re_ofReal_mul, Real.cos_pi_div_four, mul_one]
  · rw [Complex.exp_ofReal_mul_I_im, Complex.im_ofReal_mul, Real.sin_pi_div_four, mul_one]

theorem exp_neg_pi4 : Complex.exp (-Complex.I * (Real.pi / 4)) = ((√2 / 2 : ℝ) : ℂ) * ⟨1, -1⟩ := by
  rw [show -Complex.I * ((Real.pi : ℂ) / 4) = ((-(Real.pi / 4) : ℝ) : ℂ) * Complex.I by push_cast; ring]
  apply Complex.ext
  · rw [Complex.exp_ofReal_mul_I_re, Complex.re_ofReal_mul, Real.cos_neg, Real.cos_pi_div_four, mul_one]
  · rw [Complex.exp_ofReal_mul_I_im, Complex.im_ofReal_mul, Real.sin_neg, Real.sin_pi_div_four, mul_neg, mul_one]

theorem norm_one_pm {y : ℝ} (h : y ^ 2 = 1) : ‖(⟨1, y⟩ : ℂ)‖ = √2 := by
  rw [Complex.norm_def, Complex.normSq_mk]
  congr 1
  nlinarith

variable (c) in
/-- the parts of a rotation by 45°, rounded -/
def RotOK (y : ℝ) (t : Xmm F → Xmm F) : Prop :=
  ∀ a : Xmm F, cfin c.fin a → ‖c.cv a‖ ≤ 2 * c.G → cfin c.fin (t a) ∧
      |c.val (t a 0) - ((⟨1, y⟩ : ℂ) * c.cv a).re| ≤ c.u * |((⟨1, y⟩ : ℂ) * c.cv a).re| ∧
      |c.val (t a 1) - ((⟨1, y⟩ : ℂ) * c.cv a).im| ≤ c.u * |((⟨1, y⟩ : ℂ) * c.cv a).im|

section rot
variable {p q : F} (hp : c.fin p) (hq : c.fin q) (h1 : |c.val p| ≤ 2 * c.G) (h2 : |c.val q| ≤ 2 * c.G)
include hp hq h1 h2

theorem add_rnd : c.fin (fadd p q) ∧ |c.val (fadd p q) - (c.val p + c.val q)| ≤ c.u * |c.val p + c.val q| :=
  c.laws.add p q hp hq (by have := abs_add_le (c.val p) (c.val q); linarith [c.G_le, c.G_pos])

theorem sub_rnd : c.fin (fsub p q) ∧ |c.val (fsub p q) - (c.val p - c.val q)| ≤ c.u * |c.val p - c.val q| :=
  c.laws.sub p q hp hq (by have := abs_sub (c.val p) (c.val q); linarith [c.G_le, c.G_pos])

theorem add_neg_rnd : c.fin (fadd p (fneg q)) ∧
    |c.val (fadd p (fneg q)) - (c.val p - c.val q)| ≤ c.u * |c.val p - c.val q| := by
  obtain ⟨fn, en⟩ := c.laws.neg q hq
  have := add_rnd hp fn h1 (by rw [en, abs_neg]; exact h2)
  rw [en, ← sub_eq_add_neg] at this
  exact this
end rot

section
variable {t : Xmm F → Xmm F}

theorem RotOK.of_v (h : ∀ a : Xmm F, cfin c.fin a → ‖c.cv a‖ ≤ 2 * c.G →
    (c.fin (t a 0) ∧ |c.val (t a 0) - (c.val (a 0) - c.val (a 1))| ≤ c.u * |c.val (a 0) - c.val (a 1)|) ∧
    (c.fin (t a 1) ∧ |c.val (t a 1) - (c.val (a 0) + c.val (a 1))| ≤ c.u * |c.val (a 0) + c.val (a 1)|)) :
    c.RotOK 1 t := by
  intro a fa ha
  obtain ⟨⟨f0, e0⟩, f1, e1⟩ := h a fa ha
  have r0 : ((⟨1, 1⟩ : ℂ) * c.cv a).re = c.val (a 0) - c.val (a 1) := by simp [Complex.mul_re, cval]
  have r1 : ((⟨1, 1⟩ : ℂ) * c.cv a).im = c.val (a 0) + c.val (a 1) := by simp [Complex.mul_im, cval, add_comm]
  exact ⟨⟨f0, f1⟩, by rw [r0]; exact e0, by rw [r1]; exact e1⟩

theorem RotOK.of_w (h : ∀ a : Xmm F, cfin c.fin a → ‖c.cv a‖ ≤ 2 * c.G →
    (c.fin (t a 0) ∧ |c.val (t a 0) - (c.val (a 0) + c.val (a 1))| ≤ c.u * |c.val (a 0) + c.val (a 1)|) ∧
    (c.fin (t a 1) ∧ |c.val (t a 1) - (c.val (a 1) - c.val (a 0))| ≤ c.u * |c.val (a 1) - c.val (a 0)|)) :
    c.RotOK (-1) t := by
  intro a fa ha
  obtain ⟨⟨f0, e0⟩, f1, e1⟩ := h a fa ha
  have r0 : ((⟨1, -1⟩ : ℂ) * c.cv a).re = c.val (a 0) + c.val (a 1) := by simp [Complex.mul_re, cval]
  have r1 : ((⟨1, -1⟩ : ℂ) * c.cv a).im = c.val (a 1) - c.val (a 0) := by
    simp [Complex.mul_im, cval]; ring
  exact ⟨⟨f0, f1⟩, by rw [r0]; exact e0, by rw [r1]; exact e1⟩

end

theorem Ap.v8 {t : Xmm F → Xmm F} (ht : c.RotOK 1 t) (ha : c.Ap a a' M k) :
    c.Ap (Complex.exp (Complex.I * (Real.pi / 4)) * a) ![fmul sqrt1_2 (t a' 0), fmul sqrt1_2 (t a' 1)] M (k + 4) := by
  rw [exp_pi4, mul_assoc]
  exact Ap.rot_comp (norm_one_pm (by norm_num)) ha (ht a')

theorem Ap.w8 {t : Xmm F → Xmm F} (ht : c.RotOK (-1) t) (ha : c.Ap a a' M k) :
    c.Ap (Complex.exp (-Complex.I * (Real.pi / 4)) * a) ![fmul sqrt1_2 (t a' 0), fmul sqrt1_2 (t a' 1)] M (k + 4) := by
  rw [exp_neg_pi4, mul_assoc]
  exact Ap.rot_comp (norm_one_pm (by norm_num)) ha (ht a')

theorem Ap.v8xpz (i : Target) (ha : c.Ap a a' M k) :
    c.Ap (Complex.exp (Complex.I * (Real.pi / 4)) * a) ((i.xmm F).v8xpz a') M (k + 4) := by
  have e : ∀ (a : Xmm F), ‖c.cv a‖ ≤ 2 * c.G → |c.val (a 0)| ≤ 2 * c.G ∧ |c.val (a 1)| ≤ 2 * c.G :=
    fun a h => ⟨re_le (c.cv a) h, im_le (c.cv a) h⟩
  unfold Target.xmm
  split
  · split
    · have := Ap.v8 (t := fun a => ![fsub (a 0) (a 1), fadd (a 1) (a 0)]) (RotOK.of_v fun a fa h =>
        ⟨sub_rnd fa.1 fa.2 (e a h).1 (e a h).2, by
          have := add_rnd fa.2 fa.1 (e a h).2 (e a h).1
          rwa [add_comm (c.val (a 1))] at this⟩) ha
      convert this using 1
      funext j; fin_cases j <;> rfl
    · have := Ap.v8 (t := fun a => ![fadd (a 0) (fneg (a 1)), fadd (a 1) (a 0)]) (RotOK.of_v fun a fa h =>
        ⟨add_neg_rnd fa.1 fa.2 (e a h).1 (e a h).2, by
          have := add_rnd fa.2 fa.1 (e a h).2 (e a h).1
          rwa [add_comm (c.val (a 1))] at this⟩) ha
      convert this using 1
      funext j; fin_cases j <;> rfl
  · exact Ap.v8 (t := fun a => ![fsub (a 0) (a 1), fadd (a 0) (a 1)]) (RotOK.of_v fun a fa h =>
        ⟨sub_rnd fa.1 fa.2 (e a h).1 (e a h).2, add_rnd fa.1 fa.2 (e a h).1 (e a h).2⟩) ha

theorem Ap.w8xpz (i : Target) (ha : c.Ap a a' M k) :
    c.Ap (Complex.exp (-Complex.I * (Real.pi / 4)) * a) ((i.xmm F).w8xpz a') M (k + 4) := by
  have e : ∀ (a : Xmm F), ‖c.cv a‖ ≤ 2 * c.G → |c.val (a 0)| ≤ 2 * c.G ∧ |c.val (a 1)| ≤ 2 * c.G :=
    fun a h => ⟨re_le (c.cv a) h, im_le (c.cv a) h⟩
  have sse := Ap.w8 (t := fun a => ![fadd (a 0) (a 1), fadd (a 1) (fneg (a 0))]) (RotOK.of_w fun a fa h =>
        ⟨add_rnd fa.1 fa.2 (e a h).1 (e a h).2, add_neg_rnd fa.2 fa.1 (e a h).2 (e a h).1⟩) ha
  have e2 : ![fmul sqrt1_2 (![fadd (a' 0) (a' 1), fadd (a' 1) (fneg (a' 0))] 0),
      fmul sqrt1_2 (![fadd (a' 0) (a' 1), fadd (a' 1) (fneg (a' 0))] 1)] = Sse.w8xpz a' := by
    funext j; fin_cases j <;> rfl
  rw [e2] at sse
  unfold Target.xmm
  split
  · split
    · exact sse
    · exact sse
  · exact Ap.w8 (t := fun a => ![fadd (a 0) (a 1), fsub (a 1) (a 0)]) (RotOK.of_w fun a fa h =>
        ⟨add_rnd fa.1 fa.2 (e a h).1 (e a h).2, sub_rnd fa.2 fa.1 (e a h).2 (e a h).1⟩) ha

end Flt
end OTFFT
