/-
The laws of the error analysis hold for IEEE arithmetic, on every instruction set.
-/
import Verif.Proof.MySqrtRound
import Verif.Proof.RoundTab
import Verif.Proof.ApLaws

namespace OTFFT
namespace Flt
variable {F : Type} [FArith F] {c : Flt F} {a b : ℂ} {a' b' : Xmm F} {M M' M1 M2 : ℝ} {k k' k1 k2 : ℕ}

/-! ### table entries -/

theorem pi_range : (3.14:ℝ) < Real.pi ∧ Real.pi < 3.15 :=
  ⟨Real.pi_gt_d2, Real.pi_lt_d2⟩

theorem m0_small {x : ℝ} (h : 1 / 2 ^ 31 ≤ x) : c.m0 ≤ x := le_trans c.m0_le (le_trans (by norm_num) h)
theorem G_big {x : ℝ} (h : x ≤ 2 ^ 31) : x ≤ c.G := le_trans (le_trans h (by norm_num)) c.G_ge

theorem nat_ok {n : ℕ} (h : n ≤ 2 ^ 31) : c.fin (fofNat n) ∧ c.val (fofNat n) = ((n : ℕ) : ℝ) :=
  Rp.nat n (by
    have : (n : ℝ) ≤ 2 ^ 31 := by exact_mod_cast h
    exact le_trans this (by norm_num))

theorem two_pi : c.Rp ((2 : ℕ) * Real.pi) (fmul (fofNat 2) fpi) (2 * Real.pi) (201 / 100) ∧
    c.Rp (-((2 : ℕ) : ℝ) * Real.pi) (fmul (fneg (fofNat 2)) fpi) (2 * Real.pi) (201 / 100) := by
  have hp := pi_range
  obtain ⟨f2, e2⟩ := nat_ok (c := c) (n := 2) (by norm_num)
  obtain ⟨fn, en⟩ := c.laws.neg _ f2
  have hm : c.m0 ≤ Real.pi * 2 := m0_small (by norm_num; linarith)
  have hG : Real.pi * 2 ≤ c.G := G_big (by norm_num; linarith)
  have h1 := (Rp.mul_exact (Rp.pi (c := c)) f2 e2 (Y := 2) (by norm_num) (by norm_num) (by norm_num) hm hG).2
  have h2 := (Rp.mul_exact (Rp.pi (c := c)) fn (y := -((2:ℕ):ℝ)) (by rw [en, e2]) (Y := 2) (by norm_num) (by norm_num)
    (by norm_num) hm hG).2
  exact ⟨h1.mono (by norm_num) (by linarith) (by norm_num), h2.mono (by norm_num) (by linarith) (by norm_num)⟩

section theta
variable {N : ℕ} (h1 : 1 ≤ N) (h31 : N ≤ 2 ^ 31)
include h1 h31

theorem frac : (0:ℝ) < N ∧ 1 / 2 ^ 31 ≤ 2 * Real.pi / N ∧ 2 * Real.pi / N ≤ 2 ^ 31 := by
  have hp := pi_range
  have hN : (1:ℝ) ≤ N := by exact_mod_cast h1
  have hN' : (N:ℝ) ≤ 2 ^ 31 := by exact_mod_cast h31
  refine ⟨by linarith, ?_, ?_⟩
  · rw [div_le_div_iff₀ (by positivity) (by linarith)]; nlinarith
  · rw [div_le_iff₀ (by linarith)]; norm_num at hN' ⊢; nlinarith

theorem theta_ok : c.Rp (((2 : ℕ) * Real.pi) / N) (fdiv (fmul (fofNat 2) fpi) (fofNat N)) (2 * Real.pi / N) (302 / 100) ∧
    c.Rp ((-((2 : ℕ) : ℝ) * Real.pi) / N) (thetaW F N) (2 * Real.pi / N) (302 / 100) := by
  obtain ⟨hN, hm, hG⟩ := frac h1 h31
  obtain ⟨fN, eN⟩ := nat_ok (c := c) h31
  obtain ⟨p1, p2⟩ := two_pi (c := c)
  exact ⟨(p1.div_exact fN eN hN (by norm_num) (by norm_num) (m0_small hm) (G_big hG)).mono (by norm_num) le_rfl (by norm_num),
    (p2.div_exact fN eN hN (by norm_num) (by norm_num) (m0_small hm) (G_big hG)).mono (by norm_num) le_rfl (by norm_num)⟩

/-- `p/N ≤ 1/r` with `N/r ≥ 1` -/
theorem ratio {p r : ℕ} (hr : 1 ≤ r) (hp : r * (p + 1) ≤ N) : |(p:ℝ)| ≤ N / r ∧ (1:ℝ) ≤ N / r ∧
    2 * Real.pi / N * (N / r) = 2 * Real.pi / r := by
  have hN := (frac h1 h31).1
  have hr' : (0:ℝ) < r := by exact_mod_cast hr
  have : (r:ℝ) * (p + 1) ≤ N := by exact_mod_cast hp
  refine ⟨?_, ?_, by field_simp⟩
  · rw [abs_of_nonneg (by positivity), le_div_iff₀ hr']; nlinarith
  · rw [le_div_iff₀ hr']; nlinarith [(Nat.cast_nonneg p : (0:ℝ) ≤ p)]

theorem wr1_rp {p r : ℕ} (hr : 1 ≤ r) (hr' : r ≤ 16) (hp : r * (p + 1) ≤ N) :
    c.Rp ((-((2 : ℕ) : ℝ) * Real.pi) / N * p) (fmul (thetaW F N) (fofNat p)) (2 * Real.pi / r) (403 / 100) ∧
    c.Rp (p * (((2 : ℕ) * Real.pi) / N)) (fmul (fofNat p) (fdiv (fmul (fofNat 2) fpi) (fofNat N))) (2 * Real.pi / r)
      (403 / 100) := by
  have hpi := pi_range
  obtain ⟨hN, hm, hG⟩ := frac h1 h31
  obtain ⟨t1, t2⟩ := theta_ok (c := c) h1 h31
  obtain ⟨q1, q2, q3⟩ := ratio h1 h31 hr hp
  have hpN : p ≤ N := by nlinarith
  obtain ⟨fp, ep⟩ := nat_ok (c := c) (n := p) (by omega)
  have hrr : (r:ℝ) ≤ 16 := by exact_mod_cast hr'
  have hr1 : (1:ℝ) ≤ r := by exact_mod_cast hr
  have b1 : 1 / 2 ^ 31 ≤ 2 * Real.pi / r := by
    rw [div_le_div_iff₀ (by positivity) (by linarith)]; nlinarith
  have b2 : 2 * Real.pi / r ≤ 2 ^ 31 := by
    rw [div_le_iff₀ (by linarith)]; norm_num; nlinarith
  have a1 := (t2.mul_exact fp ep q1 (by norm_num) (by norm_num) (by rw [q3]; exact m0_small b1) (by rw [q3]; exact G_big b2)).1
  have a2 := (t1.mul_exact fp ep q1 (by norm_num) (by norm_num) (by rw [q3]; exact m0_small b1) (by rw [q3]; exact G_big b2)).2
  rw [q3] at a1 a2
  exact ⟨a1.mono (by norm_num) le_rfl (by norm_num), a2.mono (by norm_num) le_rfl (by norm_num)⟩

/-- the full circle -/
theorem mix_rp {p : ℕ} (hp : p ≤ N) :
    c.Rp (p * (((2 : ℕ) * Real.pi) / N)) (fmul (fofNat p) (fdiv (fmul (fofNat 2) fpi) (fofNat N))) (2 * Real.pi)
      (403 / 100) := by
  have hpi := pi_range
  obtain ⟨hN, hm, hG⟩ := frac h1 h31
  obtain ⟨t1, t2⟩ := theta_ok (c := c) h1 h31
  obtain ⟨fp, ep⟩ := nat_ok (c := c) (n := p) (by omega)
  have e : 2 * Real.pi / N * N = 2 * Real.pi := by field_simp
  have a2 := (t1.mul_exact fp ep (Y := N) (by rw [abs_of_nonneg (by positivity)]; exact_mod_cast hp) (by norm_num) (by norm_num)
    (by rw [e]; exact m0_small (by norm_num; linarith)) (by rw [e]; exact G_big (by norm_num; linarith))).2
  rw [e] at a2
  exact a2.mono (by norm_num) le_rfl (by norm_num)

/-- `θ·a·b` -/
theorem two_rp {p q : ℕ} {Y Z : ℝ} (hp : p ≤ 2 ^ 31) (hq : q ≤ 2 ^ 31) (hY : (p:ℝ) ≤ Y) (hZ : (q:ℝ) ≤ Z) (hY1 : 1 ≤ Y)
    (hZ1 : 1 ≤ Z) (hYZ : Y * Z ≤ N) :
    c.Rp ((-((2 : ℕ) : ℝ) * Real.pi) / N * p * q) (fmul (fmul (thetaW F N) (fofNat p)) (fofNat q)) (2 * Real.pi)
      (504 / 100) := by
  have hpi := pi_range
  obtain ⟨hN, hm, hG⟩ := frac h1 h31
  obtain ⟨t1, t2⟩ := theta_ok (c := c) h1 h31
  obtain ⟨fp, ep⟩ := nat_ok (c := c) (n := p) hp
  obtain ⟨fq, eq⟩ := nat_ok (c := c) (n := q) hq
  have b0 : 0 < 2 * Real.pi / N := by positivity
  have bY : 2 * Real.pi / N ≤ 2 * Real.pi / N * Y := by nlinarith
  have bZ : 2 * Real.pi / N * Y ≤ 2 * Real.pi / N * Y * Z := by nlinarith
  have bT : 2 * Real.pi / N * Y * Z ≤ 2 * Real.pi := by
    rw [mul_assoc, div_mul_eq_mul_div, div_le_iff₀ hN]
    nlinarith
  have a1 := (t2.mul_exact fp ep (Y := Y) (by rw [abs_of_nonneg (by positivity)]; exact hY) (by norm_num) (by norm_num)
    (m0_small (by linarith)) (G_big (by norm_num; linarith))).1
  have a2 := (a1.mul_exact fq eq (Y := Z) (by rw [abs_of_nonneg (by positivity)]; exact hZ) (by norm_num) (by norm_num)
    (m0_small (by linarith)) (G_big (by norm_num; linarith))).1
  exact a2.mono (by norm_num) bT (by norm_num)

end theta

/-- adding to zero -/
theorem Ap.zero_add_comp (ha : c.Ap a a' M k) :
    c.Ap ((⟨((0:ℕ):ℝ), ((0:ℕ):ℝ)⟩ : ℂ) + a) ![fadd (fofNat 0) (a' 0), fadd (fofNat 0) (a' 1)] M (k + 1) := by
  have hz : (⟨((0:ℕ):ℝ), ((0:ℕ):ℝ)⟩ : ℂ) + a = a := by
    apply Complex.ext <;> simp
  rw [hz]
  refine ⟨ha.1, fun h1 h2 => ?_⟩
  have hM := ha.nonneg
  obtain ⟨f, n, e⟩ := ha.2 h1 (by omega)
  obtain ⟨fz, ez⟩ := nat_ok (c := c) (n := 0) (by norm_num)
  rw [Nat.cast_zero] at ez
  have p2 := c.pow_le_two (k := k) (by omega)
  have hc := norm_computed n e
  have hΩ : ‖c.cv a'‖ ≤ c.Ω := by
    have := c.G_le
    nlinarith [c.G_pos]
  obtain ⟨f0, e0⟩ := c.laws.add (fofNat 0) (a' 0) fz f.1 (by rw [ez, _root_.zero_add]; exact re_le (c.cv a') hΩ)
  obtain ⟨f1, e1⟩ := c.laws.add (fofNat 0) (a' 1) fz f.2 (by rw [ez, _root_.zero_add]; exact im_le (c.cv a') hΩ)
  rw [ez, _root_.zero_add] at e0 e1
  refine ⟨⟨f0, f1⟩, n, step hM e ?_⟩
  have := norm_le_of_comp (w := c.cv ![fadd (fofNat 0) (a' 0), fadd (fofNat 0) (a' 1)] - c.cv a')
    (z := c.cv a') (η := 0) c.u_nonneg le_rfl (by rw [add_zero]; exact e0) (by rw [add_zero]; exact e1)
  have := mul_le_mul_of_nonneg_left hc c.u_nonneg
  push_cast
  linarith

/-! ### scale factors -/

section scale
variable {N : ℕ} (h1 : 1 ≤ N) (h31 : N ≤ 2 ^ 31)
include h1 h31

theorem recip_ok : c.fin (fdiv (fofNat 1) (fofNat N)) ∧
    |c.val (fdiv (fofNat 1) (fofNat N)) - 1 / (N:ℝ)| ≤ 1 / (N:ℝ) * (1001 / 1000 * c.u) := by
  have hN : (1:ℝ) ≤ N := by exact_mod_cast h1
  have hN' : (N:ℝ) ≤ 2 ^ 31 := by exact_mod_cast h31
  obtain ⟨fN, eN⟩ := nat_ok (c := c) h31
  obtain ⟨f1, e1⟩ := nat_ok (c := c) (n := 1) (by norm_num)
  rw [Nat.cast_one] at e1
  have hp : 0 < 1 / (N:ℝ) := by positivity
  have hle : 1 / (N:ℝ) ≤ 1 := by rw [div_le_one (by linarith)]; exact hN
  obtain ⟨f, e⟩ := c.laws.div (fofNat 1) (fofNat N) f1 fN (by rw [eN]; linarith) (by
    rw [e1, eN, abs_of_pos hp]
    have := c.G_ge
    have := c.G_le
    norm_num at *
    linarith)
  rw [e1, eN, abs_of_pos hp] at e
  refine ⟨f, le_trans e ?_⟩
  have := c.η_le_of (M := 1 / (N:ℝ)) (m0_small (one_div_le_one_div_of_le (by linarith) hN'))
  linarith

theorem unit_of {s : F} (fs : c.fin s) (es : |c.val s - √(N:ℝ)| ≤ 13 / 5 * c.u * √(N:ℝ)) : c.fin (fdiv (fofNat 1) s) ∧
    |c.val (fdiv (fofNat 1) s) - 1 / √(N:ℝ)| ≤ 1 / √(N:ℝ) * (4 * c.u) := by
  have hN : (1:ℝ) ≤ N := by exact_mod_cast h1
  have hN' : (N:ℝ) ≤ 2 ^ 31 := by exact_mod_cast h31
  obtain ⟨fN, eN⟩ := nat_ok (c := c) h31
  obtain ⟨f1, e1⟩ := nat_ok (c := c) (n := 1) (by norm_num)
  rw [Nat.cast_one] at e1
  have hu := c.u_nonneg
  have hu' : c.u ≤ 1 / 10000 := le_trans c.u_le (by norm_num)
  have hS := Real.one_le_sqrt.mpr hN
  have hS2 : √(N:ℝ) ≤ 2 ^ 31 := by
    refine le_trans ?_ hN'
    rw [Real.sqrt_le_left (by linarith)]
    nlinarith
  generalize √(N:ℝ) = S at *
  generalize hVd : c.val s = V at *
  rw [abs_le] at es
  have hV : 999 / 1000 * S ≤ V := by nlinarith
  have hV0 : 0 < V := by linarith
  have hinv : 1 / V ≤ 1002 / 1000 * (1 / S) := by
    rw [div_le_iff₀ hV0, mul_assoc, mul_comm (1 / S), ← mul_div_assoc, mul_one, ← mul_div_assoc, le_div_iff₀ (by linarith)]
    linarith
  have hp : 0 < 1 / S := by positivity
  have hp' : 0 < 1 / V := by positivity
  have hle : 1 / S ≤ 1 := by rw [div_le_one (by linarith)]; exact hS
  have heq : 1 / V - 1 / S = (S - V) * (1 / S) * (1 / V) := by field_simp
  have hd : |1 / V - 1 / S| ≤ 13 / 5 * c.u * (1 / V) := by
    rw [heq, abs_mul, abs_mul, abs_of_pos hp, abs_of_pos hp']
    apply mul_le_mul_of_nonneg_right _ hp'.le
    have : |S - V| ≤ 13 / 5 * c.u * S := by rw [abs_le]; constructor <;> linarith
    calc |S - V| * (1 / S) ≤ 13 / 5 * c.u * S * (1 / S) := mul_le_mul_of_nonneg_right this hp.le
      _ = 13 / 5 * c.u := by field_simp
  obtain ⟨f, e⟩ := c.laws.div (fofNat 1) s f1 fs (by rw [hVd]; exact hV0.ne') (by
    rw [e1, hVd, abs_of_pos hp']
    have := c.G_ge
    have := c.G_le
    norm_num at *
    linarith)
  rw [e1, hVd, abs_of_pos hp'] at e
  refine ⟨f, ?_⟩
  have hη := c.η_le_of (M := 1 / S) (m0_small (one_div_le_one_div_of_le (by linarith) hS2))
  have := abs_add_le (c.val (fdiv (fofNat 1) s) - 1 / V) (1 / V - 1 / S)
  rw [sub_add_sub_cancel] at this
  have := mul_le_mul_of_nonneg_left hinv hu
  have : 0 ≤ c.u * (1 / S) := mul_nonneg hu hp.le
  linarith

theorem unit_ok : c.fin (fdiv (fofNat 1) (mysqrt (fofNat N))) ∧
    |c.val (fdiv (fofNat 1) (mysqrt (fofNat N))) - 1 / √(N:ℝ)| ≤ 1 / √(N:ℝ) * (4 * c.u) :=
  unit_of h1 h31 (mysqrt_err h1 h31).1 (mysqrt_err h1 h31).2

theorem libUnit_ok : c.fin (fdiv (fofNat 1) (fsqrt (fofNat N))) ∧
    |c.val (fdiv (fofNat 1) (fsqrt (fofNat N))) - 1 / √(N:ℝ)| ≤ 1 / √(N:ℝ) * (4 * c.u) := by
  have hN : (1:ℝ) ≤ N := by exact_mod_cast h1
  obtain ⟨fN, eN⟩ := nat_ok (c := c) h31
  obtain ⟨fs, es⟩ := c.laws.sqrt (fofNat N) fN (by rw [eN]; linarith)
  rw [eN] at es
  refine unit_of h1 h31 fs (le_trans es ?_)
  have := mul_nonneg c.u_nonneg (Real.sqrt_nonneg (N:ℝ))
  linarith

theorem abs_sqrt_sub {x y d : ℝ} (hx : 0 ≤ x) (hy : 0 < y) (h : |x - y| ≤ y * d) : |√x - √y| ≤ √y * d := by
  have hs := Real.sqrt_pos.mpr hy
  have hx' := Real.sqrt_nonneg x
  have e : |√x - √y| * (√x + √y) = |x - y| := by
    rw [← abs_of_pos (show 0 < √x + √y by linarith), ← abs_mul]
    congr 1
    nlinarith [Real.mul_self_sqrt hx, Real.mul_self_sqrt hy.le]
  have h2 : |√x - √y| * √y ≤ |√x - √y| * (√x + √y) := mul_le_mul_of_nonneg_left (by linarith) (abs_nonneg _)
  have h3 : |√x - √y| * √y ≤ √y * d * √y := by
    rw [e] at h2
    refine le_trans h2 (le_trans h (le_of_eq ?_))
    rw [mul_right_comm, Real.mul_self_sqrt hy.le]
  exact le_of_mul_le_mul_right h3 hs

theorem mixUnit_ok : c.fin (fsqrt (fdiv (fofNat 1) (fofNat N))) ∧
    |c.val (fsqrt (fdiv (fofNat 1) (fofNat N))) - 1 / √(N:ℝ)| ≤ 1 / √(N:ℝ) * (4 * c.u) := by
  have hN : (1:ℝ) ≤ N := by exact_mod_cast h1
  obtain ⟨f, e⟩ := recip_ok (c := c) h1 h31
  have hu := c.u_nonneg
  have hu' : c.u ≤ 1 / 1000 := le_trans c.u_le (by norm_num)
  have hp : 0 < 1 / (N:ℝ) := by positivity
  generalize hx : c.val (fdiv (fofNat 1) (fofNat N)) = X at *
  have hX : 0 ≤ X := by
    rw [abs_le] at e
    nlinarith
  obtain ⟨fs, es⟩ := c.laws.sqrt _ f (by rw [hx]; exact hX)
  rw [hx] at es
  refine ⟨fs, ?_⟩
  have hd := abs_sqrt_sub h1 h31 hX hp e
  have hsq : √(1 / (N:ℝ)) = 1 / √(N:ℝ) := by rw [Real.sqrt_div zero_le_one, Real.sqrt_one]
  rw [hsq] at hd
  have hS : 0 < 1 / √(N:ℝ) := by rw [← hsq]; exact Real.sqrt_pos.mpr hp
  generalize 1 / √(N:ℝ) = S at *
  have hX2 : √X ≤ 2 * S := by
    rw [abs_le] at hd
    nlinarith
  have := abs_add_le (c.val (fsqrt (fdiv (fofNat 1) (fofNat N))) - √X) (√X - S)
  rw [sub_add_sub_cancel] at this
  nlinarith

end scale

section scaleAp
variable {N : ℕ}

theorem Ap.scl_of {s : ℝ} {s' : F} (ha : c.Ap a a' M k) (hs : c.fin s' ∧ |c.val s' - s| ≤ s * (4 * c.u)) (hs0 : 0 ≤ s)
    (hs1 : s ≤ 2) (hM : M ≤ c.G) (hm : c.m0 ≤ s * M) :
    c.Ap (s * a) ![fmul s' (a' 0), fmul s' (a' 1)] (s * M) (k + 6) :=
  Ap.scale_comp (j := 4) ha hs.1 hs0 hs1 (by push_cast; exact hs.2) hM hm

end scaleAp

/-- the laws hold for the library compiled for any instruction set -/
theorem apLaws (c : Flt F) (i : Target) : letI := i.arith F
    ApLaws (C := Xmm F) c.Ap c.m0 c.G := by
  letI := i.arith F
  have hpi := pi_range
  have eadd : ∀ a b : Xmm F, (addpz a b : Xmm F) = ![fadd (a 0) (b 0), fadd (a 1) (b 1)] := by
    intro a b
    change (i.xmm F).addpz a b = _
    unfold Target.xmm
    split
    · split <;> (funext j; fin_cases j <;> rfl)
    · rfl
  have esub : ∀ a b : Xmm F, (subpz a b : Xmm F) = ![fsub (a 0) (b 0), fsub (a 1) (b 1)] := by
    intro a b
    change (i.xmm F).subpz a b = _
    unfold Target.xmm
    split
    · split <;> (funext j; fin_cases j <;> rfl)
    · rfl
  have ecnj : ∀ a : Xmm F, (cnjpz a : Xmm F) = ![a 0, fneg (a 1)] := by
    intro a
    change (i.xmm F).cnjpz a = _
    unfold Target.xmm
    split
    · split <;> (funext j; fin_cases j <;> rfl)
    · rfl
  have ejx : ∀ a : Xmm F, (jxpz a : Xmm F) = ![fneg (a 1), a 0] := by
    intro a
    change (i.xmm F).jxpz a = _
    unfold Target.xmm
    split
    · split <;> (funext j; fin_cases j <;> rfl)
    · rfl
  have escl : ∀ (r : F) (a : Xmm F), (scl r a : Xmm F) = ![fmul r (a 0), fmul r (a 1)] := by
    intro r a
    change (i.xmm F).mulpd ![r, r] a = _
    unfold Target.xmm
    split
    · split <;> (funext j; fin_cases j <;> rfl)
    · rfl
  have hmul := mulOK_target (c := c) i
  have htw : ∀ {w : ℂ} {w' : Xmm F} {a a' M k}, c.Ap w w' 1 1 → c.Ap a a' M k →
      c.Ap (w * a) ((i.xmm F).mulpz w' a') M (k + 5) := fun hw ha =>
    (Ap.tw_mul hmul hw ha).mono le_rfl (by omega)
  have hh1 : ∀ a : Xmm F, (h1xpz a : Xmm F) = (i.xmm F).mulpz ![h1x, h1y] a := by
    intro a
    change (i.xmm F).h1xpz a = _
    unfold Target.xmm
    split
    · split <;> rfl
    · rfl
  have hh3 : ∀ a : Xmm F, (h3xpz a : Xmm F) = (i.xmm F).mulpz ![fneg h1y, fneg h1x] a := by
    intro a
    change (i.xmm F).h3xpz a = _
    unfold Target.xmm
    split
    · split <;> rfl
    · rfl
  have hhf : ∀ a : Xmm F, (hfxpz a : Xmm F) = (i.xmm F).mulpz ![h1x, fneg h1y] a := by
    intro a
    change (i.xmm F).hfxpz a = _
    unfold Target.xmm
    split
    · split <;> rfl
    · rfl
  have hhd : ∀ a : Xmm F, (hdxpz a : Xmm F) = (i.xmm F).mulpz ![fneg h1y, h1x] a := by
    intro a
    change (i.xmm F).hdxpz a = _
    unfold Target.xmm
    split
    · split <;> rfl
    · rfl
  have hscale : ∀ {a : ℂ} {a' : Xmm F} {M : ℝ} {k : ℕ} {s : ℝ} {s' : F} {N : ℕ} {mode : ScaleMode}, s = scR N mode →
      1 ≤ N → N ≤ 2 ^ 31 → c.Ap a a' M k → M ≤ c.G → c.m0 ≤ scR N mode * M →
      c.fin s' ∧ |c.val s' - s| ≤ s * (4 * c.u) → c.Ap ((s : ℂ) * a) (scl s' a' : Xmm F) (scR N mode * M) (k + 6) := by
    intro a a' M k s s' N mode e h1 h31 ha hG hm hs
    rw [escl]
    subst e
    exact Ap.scl_of ha hs (ApLaws.scR_pos N mode h1).le (le_trans (ApLaws.scR_le_one' N mode h1) one_le_two) hG hm
  have hrecip : ∀ {N : ℕ}, 1 ≤ N → N ≤ 2 ^ 31 → c.fin (fdiv (fofNat 1) (fofNat N)) ∧
      |c.val (fdiv (fofNat 1) (fofNat N)) - 1 / (N:ℝ)| ≤ 1 / (N:ℝ) * (4 * c.u) := fun {N} h1 h31 => by
    obtain ⟨f, e⟩ := recip_ok (c := c) h1 h31
    refine ⟨f, le_trans e (mul_le_mul_of_nonneg_left ?_ (by positivity))⟩
    linarith [c.u_nonneg]
  have emix : ∀ n p : ℕ, mixTabVal ℂ n p = Complex.exp (-((p * (((2 : ℕ) * Real.pi) / n) : ℝ) : ℂ) * Complex.I) := by
    intro n p
    rw [← Complex.ofReal_neg, exp_I_mk, Real.cos_neg, Real.sin_neg]
    rfl
  exact {
    m0_pos := c.m0_pos
    m0_le := c.m0_le
    G_ge := c.G_ge
    pos := fun h => h.1
    mono := fun h h1 h2 => h.mono h1 h2
    add := fun ha hb => by rw [eadd]; exact Ap.add_comp ha hb
    sub := fun ha hb => by rw [esub]; exact Ap.sub_comp ha hb
    cnj := fun ha => by rw [ecnj]; exact Ap.conj_comp ha
    jx := fun ha => by rw [ejx]; exact Ap.jx_comp ha
    v8 := fun ha => Ap.v8xpz i ha
    w8 := fun ha => Ap.w8xpz i ha
    h1 := fun ha => by rw [hh1]; exact htw Ap.h1 ha
    h3 := fun ha => by rw [hh3]; exact htw Ap.h3 ha
    hf := fun ha => by rw [hhf]; exact htw Ap.hf ha
    hd := fun ha => by rw [hhd]; exact htw Ap.hd ha
    mul := fun ha hb h1 h2 hm => Ap.mul_comp hmul ha hb h1 h2 hm
    tw_mul := fun ha hb => Ap.tw_mul hmul ha hb
    mul_tw := fun ha hb => Ap.mul_tw hmul ha hb
    scale := fun N mode h1 h31 ha hG hm => by
      cases mode with
      | scale_1 => exact ha.mono (by simp [scR]) (by omega)
      | scale_unitary =>
        have e : mysqrt (fofNat N : ℝ) = √(N:ℝ) := mysqrt_C (by simp [fofNat])
        exact hscale (s := fdiv (fofNat 1) (mysqrt (fofNat N))) (by rw [e]; simp [scR, fdiv, fofNat]) h1 h31 ha hG hm (by
          have := unit_ok (c := c) h1 h31
          rw [e]
          simpa [fdiv, fofNat] using this)
      | scale_length =>
        exact hscale (s := fdiv (fofNat 1) (fofNat N)) (by simp [scR, fdiv, fofNat]) h1 h31 ha hG hm (by
          have := hrecip h1 h31
          simpa [fdiv, fofNat] using this)
    mixScale := fun N mode h1 h31 ha hG hm => by
      cases mode with
      | scale_1 => exact ha.mono (by simp [scR]) (by omega)
      | scale_unitary =>
        exact hscale (s := fsqrt (fdiv (fofNat 1) (fofNat N))) (by simp [scR, fdiv, fofNat, fsqrt]) h1 h31 ha hG hm (by
          have := mixUnit_ok (c := c) h1 h31
          simpa [fdiv, fofNat, fsqrt] using this)
      | scale_length =>
        exact hscale (s := fdiv (fofNat 1) (fofNat N)) (by simp [scR, fdiv, fofNat]) h1 h31 ha hG hm (by
          have := hrecip h1 h31
          simpa [fdiv, fofNat] using this)
    zero_add := fun ha => by
      rw [eadd]
      exact Ap.zero_add_comp ha
    wr1 := fun {N p r} h31 hr hp => by
      have h1 : 1 ≤ N := le_trans (Nat.mul_pos (by omega) (by omega)) hp
      have h := (wr1_rp (c := c) h1 h31 (by omega) (by omega) hp).1
      rcases hr with rfl | rfl | rfl
      · exact Ap.expj (k := 10) h (by push_cast; linarith) (by norm_num) (by norm_num) (by push_cast; linarith)
      · exact Ap.expj (k := 7) h (by push_cast; linarith) (by norm_num) (by norm_num) (by push_cast; linarith)
      · exact Ap.expj (k := 5) h (by push_cast; linarith) (by norm_num) (by norm_num) (by push_cast; linarith)
    wt := fun {N r p k} h31 hp => by
      have hk := k.isLt
      have h1 : 1 ≤ N := le_trans (Nat.mul_pos (by omega) (by omega)) hp
      have hle : (k.val + 1) * (p + 1) ≤ N := le_trans (Nat.mul_le_mul_right _ (by omega)) hp
      have h := two_rp (c := c) (p := k.val + 1) (q := p) (Y := (k.val + 1 : ℕ)) (Z := (p + 1 : ℕ)) h1 h31
        (le_trans (Nat.le_mul_of_pos_right _ (by omega)) (le_trans hle h31))
        (le_trans (Nat.le_succ p) (le_trans (Nat.le_mul_of_pos_left _ (by omega)) (le_trans hle h31)))
        le_rfl (by push_cast; linarith) (by push_cast; linarith [(Nat.cast_nonneg k.val : (0:ℝ) ≤ k.val)])
        (by push_cast; linarith [(Nat.cast_nonneg p : (0:ℝ) ≤ p)]) (by exact_mod_cast hle)
      exact Ap.expj (k := 35) h (by linarith) (by norm_num) (by norm_num) (by push_cast; linarith)
    nxn := fun {n a b} h31 ha hb => by
      have h1 : 1 ≤ n := by omega
      have hnn : n ≤ n * n := Nat.le_mul_of_pos_left n h1
      have h1' : (1:ℝ) ≤ n := by exact_mod_cast h1
      have h := two_rp (c := c) (N := n * n) (p := a) (q := b) (Y := n) (Z := n) (by omega) h31
        (by omega) (by omega) (by exact_mod_cast ha.le) (by exact_mod_cast hb.le) h1' h1' (by push_cast; exact le_rfl)
      exact Ap.expj (k := 35) h (by linarith) (by norm_num) (by norm_num) (by push_cast; linarith)
    mixTab := fun {n p} h1 h31 hp => by
      rw [emix]
      exact Ap.cis_neg (mix_rp h1 h31 hp) (by linarith) (by norm_num) (by norm_num) (by push_cast; linarith)
    mixTab8 := fun {n p} h1 h31 hp => by
      rw [emix]
      exact Ap.cis_neg (wr1_rp (r := 8) h1 h31 (by omega) (by omega) hp).2 (by push_cast; linarith) (by norm_num) (by norm_num)
        (by push_cast; linarith)
    mixTab4 := fun {n p} h1 h31 hp => by
      rw [emix]
      exact Ap.cis_neg (wr1_rp (r := 4) h1 h31 (by omega) (by omega) hp).2 (by push_cast; linarith) (by norm_num) (by norm_num)
        (by push_cast; linarith) }

end Flt
end OTFFT
