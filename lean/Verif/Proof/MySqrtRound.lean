/-
The compile-time square root `mysqrt` in rounded arithmetic: whatever the recursion returns has a relative error of at most
2.6 units of roundoff.
-/
import Verif.Proof.MySqrt
import Verif.Proof.Round

namespace OTFFT

namespace Flt
variable {F : Type} [FArith F] {c : Flt F} {N : ℕ}

/-- what every iterate satisfies -/
def Iter (c : Flt F) (N : ℕ) (x : F) : Prop := c.fin x ∧ 49 / 100 ≤ c.val x ∧ c.val x ≤ 4 * N

theorem relErr {x y u : ℝ} (hy : 0 < y) (h : |x - y| ≤ y * u) : ∃ d, |d| ≤ u ∧ x = y * (1 + d) := by
  refine ⟨(x - y) / y, ?_, by field_simp; ring⟩
  rw [abs_div, abs_of_pos hy, div_le_iff₀ hy]
  linarith

/-- a quotient of ordinary size -/
theorem div_rel {a b : F} (ha : c.fin a) (hb : c.fin b) (hb0 : c.val b ≠ 0) (h1 : 1 / 8 ≤ c.val a / c.val b)
    (h2 : c.val a / c.val b ≤ 2 ^ 38) :
    c.fin (fdiv a b) ∧ ∃ d, |d| ≤ 1001 / 1000 * c.u ∧ c.val (fdiv a b) = c.val a / c.val b * (1 + d) := by
  have hp : 0 < c.val a / c.val b := by linarith
  have hG : (1099511627776:ℝ) ≤ c.G := by have := c.G_ge; norm_num at this; exact this
  have hG' := c.G_le
  obtain ⟨f, e⟩ := c.laws.div a b ha hb hb0 (by rw [abs_of_pos hp]; norm_num at h2; linarith)
  refine ⟨f, relErr hp ?_⟩
  rw [abs_of_pos hp] at e
  have h3 := c.η_le
  have h4 := c.m0_le
  have hu := c.u_pos
  have : c.u * c.m0 ≤ c.u * (c.val a / c.val b) := mul_le_mul_of_nonneg_left (by norm_num at *; linarith) hu.le
  linarith

theorem half_range {T n u d : ℝ} (h1 : 1997 / 1000 ≤ T) (h2 : T ≤ 62 / 10 * n) (hu : 0 ≤ u) (hu' : u ≤ 1 / 10000)
    (hd : -(1001 / 1000 * u) ≤ d ∧ d ≤ 1001 / 1000 * u) : 49 / 100 ≤ T / 2 * (1 + d) ∧ T / 2 * (1 + d) ≤ 4 * n := by
  constructor <;> nlinarith

theorem next_iter (h1 : 1 ≤ N) (h31 : N ≤ 2 ^ 31) {a x : F} (ha : c.fin a) (hva : c.val a = N) (hx : c.Iter N x) :
    c.Iter N (fdiv (fadd x (fdiv a x)) (fofNat 2)) ∧ ∃ d1 d2 d3, |d1| ≤ 1001 / 1000 * c.u ∧ |d2| ≤ c.u ∧
      |d3| ≤ 1001 / 1000 * c.u ∧ c.val (fdiv (fadd x (fdiv a x)) (fofNat 2)) =
        (c.val x + N / c.val x * (1 + d1)) * (1 + d2) / 2 * (1 + d3) := by
  obtain ⟨fx, lx, ux⟩ := hx
  have hN : (1:ℝ) ≤ N := by exact_mod_cast h1
  have hN' : (N:ℝ) ≤ 2147483648 := by exact_mod_cast h31
  have hu := c.u_pos
  have hu' : c.u ≤ 1 / 10000 := le_trans c.u_le (by norm_num)
  set X := c.val x with hX
  have hX0 : 0 < X := by linarith
  have hq1 : 1 / 4 ≤ (N:ℝ) / X := by rw [le_div_iff₀ hX0]; linarith
  have hq2 : (N:ℝ) / X ≤ 205 / 100 * N := by rw [div_le_iff₀ hX0]; nlinarith
  have hamgm : 2 ≤ X + N / X := by
    have : X * (N / X) = N := by field_simp
    nlinarith [sq_nonneg (X - N / X)]
  obtain ⟨fq, d1, hd1, eq⟩ := div_rel (c := c) ha fx (by rw [← hX]; exact hX0.ne') (by rw [hva, ← hX]; linarith)
    (by rw [hva, ← hX]; norm_num; linarith)
  rw [hva, ← hX] at eq
  rw [abs_le] at hd1
  have hq0 : 0 < (N:ℝ) / X := by linarith
  have hs0 : 1998 / 1000 ≤ X + N / X * (1 + d1) := by nlinarith
  have hs1 : X + N / X * (1 + d1) ≤ 61 / 10 * N := by nlinarith
  have hG : (1099511627776:ℝ) ≤ c.G := by have := c.G_ge; norm_num at this; exact this
  have hG' := c.G_le
  obtain ⟨fs, es⟩ := c.laws.add x (fdiv a x) fx fq (by
    rw [eq, ← hX, abs_of_pos (by linarith)]
    linarith)
  rw [eq, ← hX, abs_of_pos (show 0 < X + N / X * (1 + d1) by linarith)] at es
  obtain ⟨d2, hd2, es⟩ := relErr (u := c.u) (show 0 < X + N / X * (1 + d1) by linarith) (by linarith)
  obtain ⟨f2, e2⟩ := c.laws.ofNat 2 (by push_cast; linarith)
  set s := X + N / X * (1 + d1) with hs
  rw [abs_le] at hd2
  have hs2 : 1997 / 1000 ≤ s * (1 + d2) := by nlinarith
  have hs3 : s * (1 + d2) ≤ 62 / 10 * N := by nlinarith
  push_cast at e2
  obtain ⟨fh, d3, hd3, eh⟩ := div_rel (c := c) fs f2 (by rw [e2]; norm_num) (by rw [e2, es]; linarith)
    (by rw [e2, es]; norm_num; linarith)
  rw [e2, es] at eh
  rw [abs_le] at hd3
  refine ⟨⟨fh, ?_, ?_⟩, d1, d2, d3, abs_le.2 hd1, abs_le.2 hd2, abs_le.2 hd3, eh⟩
  · rw [eh]; exact (half_range hs2 hs3 hu.le hu' hd3).1
  · rw [eh]; exact (half_range hs2 hs3 hu.le hu' hd3).2

/-- a fixed point of the rounded iteration -/
theorem fixed_err {X n d1 d2 d3 u : ℝ} (hX : 0 < X) (hn : 0 < n) (hu : 0 < u) (hu' : u ≤ 1 / 10000) (h1 : |d1| ≤ 1001 / 1000 * u)
    (h2 : |d2| ≤ u) (h3 : |d3| ≤ 1001 / 1000 * u) (h : X = (X + n / X * (1 + d1)) * (1 + d2) / 2 * (1 + d3)) :
    |X - √n| ≤ 13 / 5 * u * √n := by
  obtain ⟨m, hm⟩ : ∃ m, m = (1 + d2) * (1 + d3) := ⟨_, rfl⟩
  rw [abs_le] at h1 h2 h3
  have hm1 : m ≤ 1 + 2002 / 1000 * u := by rw [hm]; nlinarith
  have hm2 : 1 - 2002 / 1000 * u ≤ m := by rw [hm]; nlinarith
  have e : X * X * (2 - m) = n * ((1 + d1) * m) := by
    have : 2 * X * X = (X * X + n * (1 + d1)) * m := by
      rw [hm]
      field_simp at h
      linear_combination h
    linear_combination this
  have up : X * X ≤ n * (1 + 51 / 10 * u) := by
    have a : (1 + d1) * m ≤ (1 + 51 / 10 * u) * (2 - m) := by nlinarith
    have b : X * X * (2 - m) ≤ n * (1 + 51 / 10 * u) * (2 - m) := by
      rw [e, mul_assoc]; exact mul_le_mul_of_nonneg_left a hn.le
    exact le_of_mul_le_mul_right b (by linarith)
  have lo : n * (1 - 51 / 10 * u) ≤ X * X := by
    have a : (1 - 51 / 10 * u) * (2 - m) ≤ (1 + d1) * m := by nlinarith
    have b : n * (1 - 51 / 10 * u) * (2 - m) ≤ X * X * (2 - m) := by
      rw [e, mul_assoc]; exact mul_le_mul_of_nonneg_left a hn.le
    exact le_of_mul_le_mul_right b (by linarith)
  have hS := Real.sqrt_pos.2 hn
  have hSS := Real.mul_self_sqrt hn.le
  set S := √n
  rw [← hSS] at up lo
  have hX2 : 999 / 1000 * S ≤ X := by
    by_contra hc
    push Not at hc
    have : X * X ≤ (999 / 1000 * S) * (999 / 1000 * S) := mul_self_le_mul_self hX.le hc.le
    nlinarith [mul_pos hS hS]
  rw [abs_le]
  constructor
  · by_contra hc
    push Not at hc
    nlinarith [mul_pos hS hS, mul_pos hu hS]
  · by_contra hc
    push Not at hc
    nlinarith [mul_pos hS hS, mul_pos hu hS]

theorem _root_.OTFFT.SqrtAux.rounded (h1 : 1 ≤ N) (h31 : N ≤ 2 ^ 31) {a x y r : F} (h : SqrtAux a x y r) (ha : c.fin a)
    (hva : c.val a = N) (hy : c.Iter N y) (hx : x = fdiv (fadd y (fdiv a y)) (fofNat 2)) :
    c.fin r ∧ |c.val r - √(N:ℝ)| ≤ 13 / 5 * c.u * √(N:ℝ) := by
  induction h with
  | stop x =>
    obtain ⟨-, d1, d2, d3, e1, e2, e3, e⟩ := next_iter h1 h31 ha hva hy
    rw [← hx] at e
    have := hy.2.1
    exact ⟨hy.1, fixed_err (by linarith) (by exact_mod_cast h1) c.u_pos (le_trans c.u_le (by norm_num)) e1 e2 e3 e⟩
  | @step x y r _ _ ih =>
    have := (next_iter h1 h31 ha hva hy).1
    rw [← hx] at this
    exact ih this rfl

/-- `mysqrt` of an integer -/
theorem isMySqrt_err (h1 : 1 ≤ N) (h31 : N ≤ 2 ^ 31) {r : F} (h : IsMySqrt (fofNat N : F) r) :
    c.fin r ∧ |c.val r - √(N:ℝ)| ≤ 13 / 5 * c.u * √(N:ℝ) := by
  have hN : (1:ℝ) ≤ N := by exact_mod_cast h1
  have hN' : (N:ℝ) ≤ 2147483648 := by exact_mod_cast h31
  have hu := c.u_pos
  have hu' : c.u ≤ 1 / 1099511627776 := by have := c.u_le; norm_num at this ⊢; exact this
  obtain ⟨fa, va⟩ := c.laws.ofNat N (by nlinarith)
  obtain ⟨f2, e2⟩ := c.laws.ofNat 2 (by push_cast; linarith)
  push_cast at e2
  obtain ⟨fx, d, hd, ex⟩ := div_rel (c := c) fa f2 (by rw [e2]; norm_num) (by rw [e2, va]; linarith)
    (by rw [e2, va]; norm_num; linarith)
  rw [e2, va] at ex
  rw [abs_le] at hd
  have hu2 : c.u ≤ 1 / 10000 := le_trans c.u_le (by norm_num)
  unfold IsMySqrt at h
  have hx : c.Iter N (fdiv (fofNat N) (fofNat 2)) := ⟨fx, by rw [ex]; nlinarith, by rw [ex]; nlinarith⟩
  generalize hX : fdiv (fofNat N) (fofNat 2 : F) = x at *
  have key : ∀ y, y = (fofNat N : F) → SqrtAux (fofNat N : F) x y r → c.fin r ∧ |c.val r - √(N:ℝ)| ≤ 13 / 5 * c.u * √(N:ℝ) := by
    intro y hy h
    cases h with
    | stop =>
      rw [hy, va] at ex
      nlinarith
    | step _ h => exact h.rounded h1 h31 fa va hx rfl
  exact key _ rfl h

theorem mysqrt_err (h1 : 1 ≤ N) (h31 : N ≤ 2 ^ 31) :
    c.fin (mysqrt (fofNat N : F)) ∧ |c.val (mysqrt (fofNat N : F)) - √(N:ℝ)| ≤ 13 / 5 * c.u * √(N:ℝ) := by
  rcases mysqrt_cases (fofNat N : F) with h | h
  · exact isMySqrt_err h1 h31 h
  · have hN : (1:ℝ) ≤ N := by exact_mod_cast h1
    have hN' : (N:ℝ) ≤ 2147483648 := by exact_mod_cast h31
    have hu := c.u_pos
    have hu' : c.u ≤ 1 / 1099511627776 := by have := c.u_le; norm_num at this ⊢; exact this
    obtain ⟨fa, va⟩ := c.laws.ofNat N (by nlinarith)
    obtain ⟨fs, es⟩ := c.laws.sqrt _ fa (by rw [va]; positivity)
    rw [h]
    refine ⟨fs, ?_⟩
    rw [va] at es
    have : 0 ≤ c.u * √(N:ℝ) := by positivity
    linarith

end Flt

end OTFFT
