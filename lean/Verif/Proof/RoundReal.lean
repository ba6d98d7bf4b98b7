/-
The laws of the error analysis of the real transforms hold for IEEE arithmetic, on every instruction set.
-/
import Verif.Proof.RoundLaws
import Verif.Proof.ApReal

namespace OTFFT
namespace Flt
variable {F : Type} [FArith F] {c : Flt F} {a b : ℂ} {a' b' : Xmm F} {M M' M1 M2 : ℝ} {k k' k1 k2 : ℕ}

theorem zero_ok : c.fin (fofNat 0) ∧ c.val (fofNat 0) = 0 := by
  have := nat_ok (c := c) (n := 0) (by norm_num)
  rwa [Nat.cast_zero] at this

theorem cv_real (x' : F) : c.cv ![x', fofNat 0] = (c.val x' : ℂ) := by
  apply Complex.ext
  · rfl
  · exact zero_ok.2

/-- computed real numbers -/
theorem Ap.real_iff {x : ℝ} {x' : F} : c.Ap (x : ℂ) ![x', fofNat 0] M k ↔
    c.m0 ≤ M ∧ (M ≤ c.G → k ≤ c.K → c.fin x' ∧ |x| ≤ M ∧ |c.val x' - x| ≤ M * ((1 + c.u) ^ k - 1)) := by
  unfold Ap
  rw [cv_real, ← Complex.ofReal_sub, Complex.norm_real, Complex.norm_real, Real.norm_eq_abs, Real.norm_eq_abs]
  refine and_congr_right fun _ => ⟨fun h h1 h2 => ?_, fun h h1 h2 => ?_⟩
  · exact ⟨(h h1 h2).1.1, (h h1 h2).2⟩
  · exact ⟨⟨(h h1 h2).1, zero_ok.1⟩, (h h1 h2).2⟩

theorem Ap.re_comp (h : c.Ap a a' M k) : c.Ap (a.re : ℂ) ![a' 0, fofNat 0] M k := by
  refine Ap.real_iff.2 ⟨h.1, fun h1 h2 => ?_⟩
  obtain ⟨f, n, e⟩ := h.2 h1 h2
  exact ⟨f.1, re_le _ n, re_le (c.cv a' - a) e⟩

theorem Ap.im_comp (h : c.Ap a a' M k) : c.Ap (a.im : ℂ) ![a' 1, fofNat 0] M k := by
  refine Ap.real_iff.2 ⟨h.1, fun h1 h2 => ?_⟩
  obtain ⟨f, n, e⟩ := h.2 h1 h2
  exact ⟨f.2, im_le _ n, im_le (c.cv a' - a) e⟩

section real
variable {x y : ℝ} {x' y' : F}

theorem Ap.mk_comp (hx : c.Ap (x : ℂ) ![x', fofNat 0] M k) (hy : c.Ap (y : ℂ) ![y', fofNat 0] M k) :
    c.Ap ⟨x, y⟩ ![x', y'] (3 / 2 * M) k := by
  have hM := hx.nonneg
  refine ⟨by linarith [hx.1], fun h1 h2 => ?_⟩
  obtain ⟨fx, nx, ex⟩ := (Ap.real_iff.1 hx).2 (by linarith) h2
  obtain ⟨fy, ny, ey⟩ := (Ap.real_iff.1 hy).2 (by linarith) h2
  refine ⟨⟨fx, fy⟩, norm_le_of_abs nx ny, ?_⟩
  rw [mul_assoc]
  exact norm_le_of_abs ex ey

theorem Ap.neg_comp (hx : c.Ap (x : ℂ) ![x', fofNat 0] M k) : c.Ap ((-x : ℝ) : ℂ) ![fneg x', fofNat 0] M k := by
  refine Ap.real_iff.2 ⟨hx.1, fun h1 h2 => ?_⟩
  obtain ⟨f, n, e⟩ := (Ap.real_iff.1 hx).2 h1 h2
  obtain ⟨fn, en⟩ := c.laws.neg x' f
  refine ⟨fn, by rwa [abs_neg], ?_⟩
  rw [en, neg_sub_neg, abs_sub_comm]
  exact e

/-- quotients -/
theorem Ap.div_comp (hx : c.Ap (x : ℂ) ![x', fofNat 0] M k) (fy : c.fin y') (hy : 1 ≤ y) (ey : |c.val y' - y| ≤ y * c.u)
    (hM : M ≤ c.G) (hm : c.m0 ≤ 1 / y * M) : c.Ap ((x / y : ℝ) : ℂ) ![fdiv x' y', fofNat 0] (1 / y * M) (k + 6) := by
  refine Ap.real_iff.2 ⟨hm, fun _ h2 => ?_⟩
  obtain ⟨f, n, e⟩ := (Ap.real_iff.1 hx).2 hM (by omega)
  have hM0 := hx.nonneg
  have hu := c.u_nonneg
  have hu' : c.u ≤ 1 / 1000 := le_trans c.u_le (by norm_num)
  have hp : 0 < 1 / y := by positivity
  have hp1 : 1 / y ≤ 1 := by rw [div_le_one (by linarith)]; exact hy
  generalize hV : c.val y' = V at *
  have ey' := abs_le.1 ey
  have hVy : 999 / 1000 * y ≤ V := by nlinarith
  have hV0 : 0 < V := by linarith
  have hq : 0 < 1 / V := by positivity
  have hinv : 1 / V ≤ 1002 / 1000 * (1 / y) := by
    rw [div_le_iff₀ hV0, mul_assoc, mul_comm (1 / y), ← mul_div_assoc, mul_one, ← mul_div_assoc, le_div_iff₀ (by linarith)]
    linarith
  have hd : |1 / V - 1 / y| ≤ 2 * c.u * (1 / y) := by
    have heq : 1 / V - 1 / y = (y - V) * (1 / y) * (1 / V) := by field_simp
    rw [heq, abs_mul, abs_mul, abs_of_pos hp, abs_of_pos hq, abs_sub_comm]
    calc |V - y| * (1 / y) * (1 / V) ≤ y * c.u * (1 / y) * (1 / V) := by gcongr
      _ = c.u * (1 / V) := by field_simp
      _ ≤ _ := by nlinarith [mul_le_mul_of_nonneg_left hinv hu, mul_nonneg hu hp.le]
  have p1 := c.one_le_pow k
  have p2 := c.pow_le_two (k := k + 2) (by omega)
  have pB := c.pow_add_ge k 2
  push_cast at pB
  have hyM : 0 ≤ 1 / y * M := mul_nonneg hp.le hM0
  -- exact quotient of the computed operands
  have h1 : |c.val x' / V - x / y| ≤ 1 / y * M * ((1 + c.u) ^ (k + 2) - 1) := by
    have e0 : c.val x' / V - x / y = (c.val x' - x) * (1 / y) + c.val x' * (1 / V - 1 / y) := by ring
    have hxv : |c.val x'| ≤ M * (1 + c.u) ^ k := by
      have := abs_le_add (c.val x') x
      linarith
    rw [e0]
    refine le_trans (abs_add_le _ _) ?_
    rw [abs_mul, abs_mul, abs_of_pos hp]
    have e1 := mul_le_mul_of_nonneg_right e hp.le
    have e2 := mul_le_mul hxv hd (abs_nonneg _) (by positivity)
    have e3 := mul_le_mul_of_nonneg_left pB hyM
    calc _ ≤ M * ((1 + c.u) ^ k - 1) * (1 / y) + M * (1 + c.u) ^ k * (2 * c.u * (1 / y)) := add_le_add e1 e2
      _ = 1 / y * M * ((1 + c.u) ^ k * (1 + 2 * c.u)) - 1 / y * M := by ring
      _ ≤ _ := by linarith
  have hn : |x / y| ≤ 1 / y * M := by
    rw [abs_div, abs_of_pos (by linarith : 0 < y), div_eq_mul_one_div, mul_comm]
    exact mul_le_mul_of_nonneg_left n hp.le
  have hc : |c.val x' / V| ≤ 1 / y * M * (1 + c.u) ^ (k + 2) := by
    have := abs_le_add (c.val x' / V) (x / y)
    linarith
  have hG := c.G_pos
  have hyG : 1 / y * M ≤ c.G := by nlinarith
  obtain ⟨ff, ee⟩ := c.laws.div x' y' f fy (by rw [hV]; exact hV0.ne') (by
    rw [hV]
    have := c.G_le
    nlinarith)
  rw [hV] at ee
  refine ⟨ff, hn, ?_⟩
  have h3 := mul_le_mul_of_nonneg_left (c.pow_add_ge (k + 2) 4) hyM
  push_cast at h3
  have := abs_add_le (c.val (fdiv x' y') - c.val x' / V) (c.val x' / V - x / y)
  rw [sub_add_sub_cancel] at this
  have hη := c.η_le_of hm
  have := mul_le_mul_of_nonneg_left hc hu
  have hpp : 1 / y * M ≤ 1 / y * M * (1 + c.u) ^ (k + 2) := le_mul_of_one_le_right hyM (c.one_le_pow _)
  have := mul_le_mul_of_nonneg_left hpp hu
  have := mul_nonneg hu hyM
  rw [show k + 2 + 4 = k + 6 from rfl] at h3
  nlinarith

/-- sum of the two lanes of a lane-wise product -/
theorem Ap.dot_comp (ha : c.Ap a a' 1 k1) (hb : c.Ap b b' M k2) :
    c.Ap ((a.re * b.re + a.im * b.im : ℝ) : ℂ) ![fadd (fmul (a' 0) (b' 0)) (fmul (a' 1) (b' 1)), fofNat 0] M (k1 + k2 + 4) := by
  refine Ap.real_iff.2 ⟨hb.1, fun h3 h4 => ?_⟩
  have m2 := hb.nonneg
  obtain ⟨fa, na, ea⟩ := ha.2 (le_trans (by norm_num) c.G_ge) (by omega)
  obtain ⟨fb, nb, eb⟩ := hb.2 h3 (by omega)
  rw [one_mul] at ea
  have hk : k1 + k2 ≤ c.K := by omega
  have p2 := c.pow_le_two hk
  have q1 := c.one_le_pow k1
  have q2 := c.one_le_pow k2
  have ca : ‖c.cv a'‖ ≤ (1 + c.u) ^ k1 := by
    have := norm_computed (M := 1) na (by rw [one_mul]; exact ea)
    rwa [one_mul] at this
  have cb := norm_computed nb eb
  have hP : ‖c.cv a'‖ * ‖c.cv b'‖ ≤ M * (1 + c.u) ^ (k1 + k2) := by
    rw [pow_add]
    calc _ ≤ (1 + c.u) ^ k1 * (M * (1 + c.u) ^ k2) := mul_le_mul ca cb (norm_nonneg _) (by positivity)
      _ = _ := by ring
  have he : ‖(starRingEnd ℂ) (c.cv a') * c.cv b' - (starRingEnd ℂ) a * b‖ ≤ M * ((1 + c.u) ^ (k1 + k2) - 1) := by
    have e : (starRingEnd ℂ) (c.cv a') * c.cv b' - (starRingEnd ℂ) a * b =
        (starRingEnd ℂ) (c.cv a' - a) * c.cv b' + (starRingEnd ℂ) a * (c.cv b' - b) := by rw [map_sub]; ring
    rw [e, pow_add]
    refine le_trans (norm_add_le _ _) ?_
    rw [norm_mul, norm_mul, Complex.norm_conj, Complex.norm_conj]
    have e1 : ‖c.cv a' - a‖ * ‖c.cv b'‖ ≤ ((1 + c.u) ^ k1 - 1) * (M * (1 + c.u) ^ k2) :=
      mul_le_mul ea cb (norm_nonneg _) (by linarith)
    have e2 : ‖a‖ * ‖c.cv b' - b‖ ≤ 1 * (M * ((1 + c.u) ^ k2 - 1)) := mul_le_mul na eb (norm_nonneg _) zero_le_one
    refine le_trans (add_le_add e1 e2) (le_of_eq ?_)
    ring
  have hr := re_le _ he
  have er : ((starRingEnd ℂ) (c.cv a') * c.cv b' - (starRingEnd ℂ) a * b).re =
      (c.val (a' 0) * c.val (b' 0) + c.val (a' 1) * c.val (b' 1)) - (a.re * b.re + a.im * b.im) := by
    simp [cv, cval, Complex.mul_re]
  rw [er] at hr
  have hn : |a.re * b.re + a.im * b.im| ≤ M := by
    have h : ((starRingEnd ℂ) a * b).re = a.re * b.re + a.im * b.im := by simp [Complex.mul_re]
    rw [← h]
    apply re_le
    rw [norm_mul, Complex.norm_conj]
    calc ‖a‖ * ‖b‖ ≤ 1 * M := mul_le_mul na nb (norm_nonneg _) zero_le_one
      _ = M := one_mul M
  have hG := c.G_pos
  have hPG : M * (1 + c.u) ^ (k1 + k2) ≤ 4 * c.G := by nlinarith
  obtain ⟨f, e⟩ := two_add (P := M * (1 + c.u) ^ (k1 + k2)) fa.1 fb.1 fa.2 fb.2
    (le_trans (abs_mul_add_le _ _ _ _ _ _ (parts (c := c) a') (parts (c := c) b')) hP) hPG
  refine ⟨f, hn, ?_⟩
  have hη := c.η_le_of hb.1
  have hM : M ≤ M * (1 + c.u) ^ (k1 + k2) := le_mul_of_one_le_right m2 (c.one_le_pow _)
  have := mul_le_mul_of_nonneg_left hM c.u_nonneg
  have := mul_nonneg c.u_nonneg m2
  have h3 := mul_le_mul_of_nonneg_left (c.pow_add_ge (k1 + k2) 4) m2
  push_cast at h3
  have := abs_add_le (c.val (fadd (fmul (a' 0) (b' 0)) (fmul (a' 1) (b' 1))) -
    (c.val (a' 0) * c.val (b' 0) + c.val (a' 1) * c.val (b' 1)))
    (c.val (a' 0) * c.val (b' 0) + c.val (a' 1) * c.val (b' 1) - (a.re * b.re + a.im * b.im))
  rw [sub_add_sub_cancel] at this
  nlinarith

end real

/-- `2/sqrt(N)` -/
theorem two_unit_ok {N : ℕ} (h1 : 1 ≤ N) (h31 : N ≤ 2 ^ 31) : c.fin (fdiv (fofNat 2) (fsqrt (fofNat N))) ∧
    |c.val (fdiv (fofNat 2) (fsqrt (fofNat N))) - 2 / √(N:ℝ)| ≤ 2 / √(N:ℝ) * (4 * c.u) := by
  have hN : (1:ℝ) ≤ N := by exact_mod_cast h1
  have hN' : (N:ℝ) ≤ 2 ^ 31 := by exact_mod_cast h31
  obtain ⟨fN, eN⟩ := nat_ok (c := c) h31
  obtain ⟨f1, e1⟩ := nat_ok (c := c) (n := 2) (by norm_num)
  rw [Nat.cast_ofNat] at e1
  obtain ⟨fs, es⟩ := c.laws.sqrt (fofNat N) fN (by rw [eN]; linarith)
  rw [eN] at es
  have hu := c.u_nonneg
  have hu' : c.u ≤ 1 / 1000 := le_trans c.u_le (by norm_num)
  have hS := Real.one_le_sqrt.mpr hN
  have hS2 : √(N:ℝ) ≤ 2 ^ 31 := by
    refine le_trans ?_ hN'
    rw [Real.sqrt_le_left (by linarith)]
    nlinarith
  generalize √(N:ℝ) = S at *
  generalize hVd : c.val (fsqrt (fofNat N)) = V at *
  rw [abs_le] at es
  have hV : 999 / 1000 * S ≤ V := by nlinarith
  have hV0 : 0 < V := by linarith
  have hinv : 2 / V ≤ 1002 / 1000 * (2 / S) := by
    rw [div_le_iff₀ hV0, mul_assoc, mul_comm (2 / S), ← mul_div_assoc, ← mul_div_assoc, le_div_iff₀ (by linarith)]
    linarith
  have hp : 0 < 2 / S := by positivity
  have hp' : 0 < 2 / V := by positivity
  have hle : 2 / S ≤ 2 := by rw [div_le_iff₀ (by linarith)]; linarith
  have heq : 2 / V - 2 / S = (S - V) * (1 / S) * (2 / V) := by field_simp
  have hd : |2 / V - 2 / S| ≤ c.u * (2 / V) := by
    rw [heq, abs_mul, abs_mul, abs_of_pos (by positivity : 0 < 1 / S), abs_of_pos hp']
    apply mul_le_mul_of_nonneg_right _ hp'.le
    have : |S - V| ≤ c.u * S := by rw [abs_le]; constructor <;> linarith
    calc |S - V| * (1 / S) ≤ c.u * S * (1 / S) := mul_le_mul_of_nonneg_right this (by positivity)
      _ = c.u := by field_simp
  obtain ⟨f, e⟩ := c.laws.div (fofNat 2) (fsqrt (fofNat N)) f1 fs (by rw [hVd]; exact hV0.ne') (by
    rw [e1, hVd, abs_of_pos hp']
    have := c.G_ge
    have := c.G_le
    norm_num at *
    linarith)
  rw [e1, hVd, abs_of_pos hp'] at e
  refine ⟨f, ?_⟩
  have hη := c.η_le_of (M := 2 / S) (m0_small (le_trans (one_div_le_one_div_of_le (by linarith) hS2)
    (div_le_div_of_nonneg_right one_le_two (by linarith))))
  have := abs_add_le (c.val (fdiv (fofNat 2) (fsqrt (fofNat N))) - 2 / V) (2 / V - 2 / S)
  rw [sub_add_sub_cancel] at this
  have := mul_le_mul_of_nonneg_left hinv hu
  have : 0 ≤ c.u * (2 / S) := mul_nonneg hu hp.le
  linarith

/-- a tighter bound on the exact value doubles the number of roundings at most -/
theorem Ap.bound_comp (h : c.Ap a a' M k) (hM : M ≤ 3 / 2 * M') (hm : c.m0 ≤ M') (hG : M ≤ c.G) (hn : ‖a‖ ≤ M') :
    c.Ap a a' M' (2 * k) := by
  refine ⟨hm, fun _ h2 => ?_⟩
  obtain ⟨f, n, e⟩ := h.2 hG (by omega)
  refine ⟨f, hn, le_trans e ?_⟩
  have p := c.one_le_pow k
  have hM' : 0 ≤ M' := le_trans c.m0_pos.le hm
  rw [two_mul, pow_add]
  generalize (1 + c.u) ^ k = q at *
  have h1 : M * (q - 1) ≤ 3 / 2 * M' * (q - 1) := mul_le_mul_of_nonneg_right hM (by linarith)
  have h2 : 3 / 2 * (q - 1) ≤ q * q - 1 := by nlinarith
  have h3 := mul_le_mul_of_nonneg_left h2 hM'
  linarith

/-- angles of the cosine transform's table -/
theorem dct_rp {N p : ℕ} (h1 : 1 ≤ N) (h31 : 2 * N ≤ 2 ^ 31) (hp : p ≤ N) :
    c.Rp (p * (Real.pi / (2 * N : ℕ))) (fmul (fofNat p) (fdiv fpi (fofNat (2 * N)))) 2 (303 / 100) := by
  have hpi := pi_range
  obtain ⟨hN, hm, hG⟩ := frac (N := 2 * N) (by omega) h31
  obtain ⟨fN, eN⟩ := nat_ok (c := c) h31
  obtain ⟨fp, ep⟩ := nat_ok (c := c) (n := p) (by omega)
  have hN1 : (1:ℝ) ≤ N := by exact_mod_cast h1
  have e : Real.pi / (2 * N : ℕ) * N = Real.pi / 2 := by push_cast; field_simp
  have hN31 : ((2 * N : ℕ) : ℝ) ≤ 2 ^ 31 := by exact_mod_cast h31
  have b : 1 / 2 ^ 31 ≤ Real.pi / (2 * N : ℕ) := by
    rw [div_le_div_iff₀ (by positivity) hN]; nlinarith
  have b' : Real.pi / (2 * N : ℕ) ≤ 2 ^ 31 := by
    rw [div_le_iff₀ hN]; push_cast; norm_num; nlinarith
  have t := (Rp.pi (c := c)).div_exact fN eN hN (by norm_num) (by norm_num) (m0_small b) (G_big b')
  have a2 := (t.mul_exact fp ep (Y := N) (by rw [abs_of_nonneg (by positivity)]; exact_mod_cast hp) (by norm_num) (by norm_num)
    (by rw [e]; exact m0_small (by norm_num; linarith)) (by rw [e]; exact G_big (by norm_num; linarith))).2
  rw [e] at a2
  exact a2.mono (by norm_num) (by linarith) (by norm_num)

/-- exchanging the parts -/
theorem Ap.swap_comp (h : c.Ap a a' M k) : c.Ap ⟨a.im, a.re⟩ ![a' 1, a' 0] M k := by
  have key : ∀ z : ℂ, ‖(⟨z.im, z.re⟩ : ℂ)‖ = ‖z‖ := fun z => by
    rw [Complex.norm_def, Complex.norm_def, Complex.normSq_mk, Complex.normSq_apply, add_comm]
  refine ⟨h.1, fun h1 h2 => ?_⟩
  obtain ⟨f, n, e⟩ := h.2 h1 h2
  refine ⟨⟨f.2, f.1⟩, by rwa [key], ?_⟩
  rw [← key] at e
  exact e

/-- the laws of the real transforms hold for the library compiled for any instruction set -/
theorem apReal (c : Flt F) (i : Target) : letI := i.arith F
    ApReal (C := Xmm F) c.Ap c.m0 c.G := by
  letI := i.arith F
  have hpi := pi_range
  have emulpd : ∀ a b : Xmm F, (CArith.mulpd a b : Xmm F) = ![fmul (a 0) (b 0), fmul (a 1) (b 1)] := by
    intro a b
    change (i.xmm F).mulpd a b = _
    unfold Target.xmm
    split
    · split <;> (funext j; fin_cases j <;> rfl)
    · rfl
  have escl : ∀ (r : F) (a : Xmm F), (scl r a : Xmm F) = ![fmul r (a 0), fmul r (a 1)] := by
    intro r a
    change (i.xmm F).mulpd ![r, r] a = _
    unfold Target.xmm
    split
    · split <;> (funext j; fin_cases j <;> rfl)
    · rfl
  have ecis : ∀ t : ℝ, (⟨Real.cos t, Real.sin t⟩ : ℂ) = Complex.exp ((t : ℂ) * Complex.I) := fun t => (exp_I_mk t).symm
  have hreal : ∀ x : ℝ, ofD ℂ x = (x : ℂ) := ofD_C
  have two := nat_ok (c := c) (n := 2) (by norm_num)
  exact {
    c.apLaws i with
    bound := fun h h1 h2 h3 h4 => h.bound_comp h1 h2 h3 h4
    re := fun h => by rw [hreal]; exact h.re_comp
    im := fun h => by rw [hreal]; exact h.im_comp
    cmk := fun hx hy => by rw [hreal] at hx hy; exact Ap.mk_comp hx hy
    dneg := fun h => by rw [hreal] at h ⊢; exact Ap.neg_comp h
    dadd := fun {x y x' y' M1 M2 k1 k2} hx hy => by
      have := (Ap.add_comp hx hy).re_comp
      rw [hreal, hreal, ← Complex.ofReal_add, Complex.ofReal_re] at this
      rw [hreal]
      exact this
    dsub := fun {x y x' y' M1 M2 k1 k2} hx hy => by
      have := (Ap.sub_comp hx hy).re_comp
      rw [hreal, hreal, ← Complex.ofReal_sub, Complex.ofReal_re] at this
      rw [hreal]
      exact this
    nat := fun {n} h1 h31 => by
      rw [hreal]
      have h1' : (1:ℝ) ≤ n := by exact_mod_cast h1
      obtain ⟨f, e⟩ := nat_ok (c := c) h31
      refine Ap.real_iff.2 ⟨le_trans m0_le_one h1', fun _ _ => ⟨f, ?_, ?_⟩⟩
      · exact le_of_eq (abs_of_nonneg (by show (0:ℝ) ≤ (n:ℝ); linarith))
      · show |c.val (fofNat n) - (n:ℝ)| ≤ _
        rw [e]; simp
    zero := by
      rw [hreal]
      refine Ap.real_iff.2 ⟨m0_le_one, fun _ _ => ⟨zero_ok.1, ?_, ?_⟩⟩
      · show |((0:ℕ):ℝ)| ≤ 1
        simp
      · show |c.val (fofNat 0) - ((0:ℕ):ℝ)| ≤ _
        rw [zero_ok.2]; simp
    div2 := fun {x x' M k} h hm hM => by
      rw [hreal] at h ⊢
      have := Ap.div_comp h two.1 (y := (2:ℕ)) (by norm_num) (by rw [two.2, sub_self, abs_zero]; exact mul_nonneg (by norm_num) c.u_nonneg)
        hM (by rw [Nat.cast_ofNat, one_div_mul_eq_div]; exact hm)
      rw [Nat.cast_ofNat, one_div_mul_eq_div] at this
      exact this
    rsc0 := fun {x x' M k} N mode h1 h31 h hM hm => by
      rw [hreal] at h ⊢
      have hN : (1:ℝ) ≤ N := by exact_mod_cast h1
      obtain ⟨fN, eN⟩ := nat_ok (c := c) h31
      cases mode with
      | scale_1 => exact h.mono (by simp [scR]) (by omega)
      | scale_unitary =>
        obtain ⟨fs, es⟩ := c.laws.sqrt (fofNat N) fN (by rw [eN]; linarith)
        rw [eN] at es
        exact Ap.div_comp h fs (y := √N) (Real.one_le_sqrt.2 hN) (by rw [mul_comm]; exact es) hM hm
      | scale_length =>
        exact Ap.div_comp h fN (y := N) hN (by rw [eN, sub_self, abs_zero]; exact mul_nonneg (by linarith) c.u_nonneg) hM hm
    rscFwd := fun {a a' M k} N mode h1 h31 h hM hm => by
      have hN : (1:ℝ) ≤ N := by exact_mod_cast h1
      cases mode with
      | scale_unitary =>
        have hS := Real.one_le_sqrt.2 hN
        have := Ap.scl_of (s := 1 / √N) (s' := fdiv (fofNat 1) (fsqrt (fofNat N))) h (libUnit_ok h1 h31) (by positivity)
          (by rw [div_le_iff₀ (by linarith)]; linarith) hM hm
        have e : (rsc .scale_unitary N a : ℂ) = ((1 / √N : ℝ) : ℂ) * a := by simp [rsc, scl, fofNat, fdiv, fsqrt]
        rw [e]
        change c.Ap _ (scl (fdiv (fofNat 1) (fsqrt (fofNat N))) a') _ _
        rw [escl]
        exact this
      | scale_1 => exact ((c.apLaws i).scale N .scale_1 h1 h31 h hM hm)
      | scale_length => exact ((c.apLaws i).scale N .scale_length h1 h31 h hM hm)
    rscInv := fun {a a' M k} N mode h1 h31 h hM hm => by
      have hN : (1:ℝ) ≤ N := by exact_mod_cast h1
      have hN' : (N:ℝ) ≤ 2 ^ 31 := by exact_mod_cast h31
      cases mode with
      | scale_1 =>
        have := Ap.scl_of (s := 2) (s' := fofNat 2) h ⟨two.1, by
          rw [two.2, Nat.cast_ofNat, sub_self, abs_zero]; linarith [c.u_nonneg]⟩ (by norm_num) le_rfl hM hm
        have e : (rscInv .scale_1 N a : ℂ) = ((2:ℝ) : ℂ) * a := by simp [rscInv, scl, fofNat]
        rw [e]
        change c.Ap _ (scl (fofNat 2) a') _ _
        rw [escl]
        exact this
      | scale_unitary =>
        have hS := Real.one_le_sqrt.2 hN
        have := Ap.scl_of (s := 2 / √N) (s' := fdiv (fofNat 2) (fsqrt (fofNat N))) h (two_unit_ok h1 h31) (by positivity)
          (by rw [div_le_iff₀ (by linarith)]; linarith) hM hm
        have e : (rscInv .scale_unitary N a : ℂ) = ((2 / √N : ℝ) : ℂ) * a := by simp [rscInv, scl, fofNat, fdiv, fsqrt]
        rw [e]
        change c.Ap _ (scl (fdiv (fofNat 2) (fsqrt (fofNat N))) a') _ _
        rw [escl]
        exact this
      | scale_length => exact h.mono (by simp [scI]) (by omega)
    cmul := fun ha hb => Ap.tw_mul mulOK_cpx ha hb
    dotRe := fun {a a' b b' M k1 k2} ha hb _ _ => by
      rw [hreal, emulpd]
      exact Ap.dot_comp ha hb
    dotIm := fun {a a' b b' M k1 k2} ha hb _ _ => by
      rw [hreal, emulpd]
      exact Ap.dot_comp ha hb
    rcos := fun {N p} h1 h31 hp => by
      have := (Ap.cis (k := 29) (mix_rp (c := c) h1 h31 hp) (by linarith) (by norm_num) (by norm_num) (by push_cast; linarith)).re_comp
      rw [exp_I_mk] at this
      rw [hreal]
      exact this
    rsin := fun {N p} h1 h31 hp => by
      have := (Ap.cis (k := 29) (mix_rp (c := c) h1 h31 hp) (by linarith) (by norm_num) (by norm_num) (by push_cast; linarith)).im_comp
      rw [exp_I_mk] at this
      rw [hreal]
      exact this
    dcos := fun {N p} h1 h31 hp => by
      have := (Ap.cis (k := 29) (dct_rp (c := c) h1 h31 hp) (by norm_num) (by norm_num) (by norm_num) (by norm_num))
      rw [exp_I_mk] at this
      exact this
    dsin := fun {N p} h1 h31 hp => by
      have := (Ap.cis (k := 29) (dct_rp (c := c) h1 h31 hp) (by norm_num) (by norm_num) (by norm_num) (by norm_num)).swap_comp
      rw [exp_I_mk] at this
      exact this }

end Flt
end OTFFT
