/-
C52: the class `complex_t` of the public header.
-/
import Verif.Spec.ComplexT
import Verif.Spec.Hom
import Verif.Proof.Simd
import Mathlib.Tactic.Linarith
import Mathlib.Tactic.FieldSimp

namespace OTFFT.Props

section
variable {F : Type} [FArith F] (m : DMem F) {a b c : ℕ}

theorem put_same (m : DMem F) (a : ℕ) (x : F) : m.put a x a = x := if_pos rfl
theorem put_ne (m : DMem F) {a l : ℕ} (x : F) (h : l ≠ a) : m.put a x l = m l := if_neg h

theorem assigned_put (m : DMem F) (a : ℕ) (x y : F) : Assigned m ((m.put a x).put (a + 1) y) a ![x, y] :=
  ⟨by rw [DMem.cpx, put_ne _ _ (by omega), put_same, put_same], fun l h1 h2 => by rw [put_ne _ _ h2, put_ne _ _ h1]⟩

/-- C52: `z += w`, `z -= w` and `z *= w` assign the sum, the difference and the product of the old values to `z`, and
change nothing else; `w` may be `z` itself. In any arithmetic. -/
theorem C52_assign (h : SameOrApart a b) :
    Assigned m (m.addAssign a b) a (Cpx.add (m.cpx a) (m.cpx b)) ∧
    Assigned m (m.subAssign a b) a (Cpx.sub (m.cpx a) (m.cpx b)) ∧
    Assigned m (m.mulAssign a b) a (Cpx.mul (m.cpx a) (m.cpx b)) := by
  have hb : b + 1 ≠ a := by rcases h with h | h | h <;> omega
  refine ⟨?_, ?_, ?_⟩
  · have := assigned_put m a (fadd (m a) (m b)) (fadd (m (a + 1)) (m (b + 1)))
    rw [DMem.addAssign]
    simp only [put_ne m _ hb, put_ne m _ (Nat.succ_ne_self a)]
    exact this
  · have := assigned_put m a (fsub (m a) (m b)) (fsub (m (a + 1)) (m (b + 1)))
    rw [DMem.subAssign]
    simp only [put_ne m _ hb, put_ne m _ (Nat.succ_ne_self a)]
    exact this
  · refine ⟨?_, fun l h1 h2 => ?_⟩
    · rw [DMem.mulAssign, DMem.cpx, put_same, put_ne _ _ (by omega), put_same]; rfl
    · rw [DMem.mulAssign, put_ne _ _ h1, put_ne _ _ h2]

/-- C52: `z *= x` and `z /= x` for a double `x` (passed by reference) that is not the real part of `z` itself; it may be its
imaginary part. -/
theorem C52_scale (h : c ≠ a) :
    Assigned m (m.scaleAssign a c) a ![fmul (m a) (m c), fmul (m (a + 1)) (m c)] ∧
    Assigned m (m.divAssign a c) a (Cpx.sdiv (m.cpx a) (m c)) := by
  constructor
  · have := assigned_put m a (fmul (m a) (m c)) (fmul (m (a + 1)) (m c))
    rw [DMem.scaleAssign]
    simp only [put_ne m _ h, put_ne m _ (Nat.succ_ne_self a)]
    exact this
  · have := assigned_put m a (fdiv (m a) (m c)) (fdiv (m (a + 1)) (m c))
    rw [DMem.divAssign]
    simp only [put_ne m _ h, put_ne m _ (Nat.succ_ne_self a)]
    exact this

/-- C52: what `z *= z.Re` and `z /= z.Re` do: the imaginary part is multiplied with or divided by the new real part. -/
theorem C52_scale_self :
    Assigned m (m.scaleAssign a a) a ![fmul (m a) (m a), fmul (m (a + 1)) (fmul (m a) (m a))] ∧
    Assigned m (m.divAssign a a) a ![fdiv (m a) (m a), fdiv (m (a + 1)) (fdiv (m a) (m a))] := by
  constructor
  · have := assigned_put m a (fmul (m a) (m a)) (fmul (m (a + 1)) (fmul (m a) (m a)))
    rw [DMem.scaleAssign]
    simp only [put_same, put_ne m _ (Nat.succ_ne_self a)]
    exact this
  · have := assigned_put m a (fdiv (m a) (m a)) (fdiv (m (a + 1)) (fdiv (m a) (m a)))
    rw [DMem.divAssign]
    simp only [put_same, put_ne m _ (Nat.succ_ne_self a)]
    exact this

end

/-! ### Exact arithmetic -/

theorem toC_ext {z w : Xmm ℝ} : z.toC = w.toC ↔ z 0 = w 0 ∧ z 1 = w 1 := by
  rw [Complex.ext_iff]; rfl

/-- C52: in exact arithmetic, for all five assignment operators: `z` becomes what the operator says. For a double operand
that is the real part of `z` itself, this is so only in special cases. -/
theorem C52_exact (m : DMem ℝ) (a b c : ℕ) :
    (SameOrApart a b →
      ((m.addAssign a b).cpx a).toC = (m.cpx a).toC + (m.cpx b).toC ∧
      ((m.subAssign a b).cpx a).toC = (m.cpx a).toC - (m.cpx b).toC ∧
      ((m.mulAssign a b).cpx a).toC = (m.cpx a).toC * (m.cpx b).toC) ∧
    (((m.scaleAssign a c).cpx a).toC = (m.cpx a).toC * (m c : ℂ) ↔ c ≠ a ∨ m a = 0 ∨ m a = 1 ∨ m (a + 1) = 0) ∧
    (m c ≠ 0 → (((m.divAssign a c).cpx a).toC = (m.cpx a).toC / (m c : ℂ) ↔ c ≠ a ∨ m a = 1 ∨ m (a + 1) = 0)) := by
  refine ⟨fun h => ?_, ?_, fun h0 => ?_⟩
  · obtain ⟨h1, h2, h3⟩ := C52_assign m h
    rw [h1.1, h2.1, h3.1]
    exact ⟨rfl, rfl, rfl⟩
  · by_cases hc : c = a
    · subst hc
      rw [(C52_scale_self m).1.1, Complex.ext_iff]
      simp only [Xmm.toC, DMem.cpx, Complex.mul_re, Complex.mul_im, Complex.ofReal_re, Complex.ofReal_im,
        Matrix.cons_val_zero, Matrix.cons_val_one]
      show (m c * m c = m c * m c - m (c + 1) * 0 ∧ m (c + 1) * (m c * m c) = m c * 0 + m (c + 1) * m c) ↔ _
      have e : m (c + 1) * (m c * m c) - m (c + 1) * m c = m (c + 1) * (m c * (m c - 1)) := by ring
      constructor
      · rintro ⟨-, h⟩
        have : m (c + 1) * (m c * (m c - 1)) = 0 := by rw [← e, h]; ring
        rcases mul_eq_zero.1 this with h | h
        · exact .inr (.inr (.inr h))
        rcases mul_eq_zero.1 h with h | h
        · exact .inr (.inl h)
        · exact .inr (.inr (.inl (by linarith)))
      · rintro (h | h | h | h)
        · exact absurd rfl h
        · rw [h]; constructor <;> ring
        · rw [h]; constructor <;> ring
        · rw [h]; constructor <;> ring
    · rw [(C52_scale m hc).1.1]
      simp only [hc, ne_eq, not_false_eq_true, true_or, iff_true]
      apply Complex.ext
      · simp [Xmm.toC, DMem.cpx]; rfl
      · simp [Xmm.toC, DMem.cpx]; rfl
  · by_cases hc : c = a
    · subst hc
      rw [(C52_scale_self m).2.1, Complex.div_ofReal, Complex.ext_iff]
      simp only [Xmm.toC, DMem.cpx, Matrix.cons_val_zero, Matrix.cons_val_one]
      show (m c / m c = m c / m c ∧ m (c + 1) / (m c / m c) = m (c + 1) / m c) ↔ _
      rw [div_self h0, div_one]
      constructor
      · rintro ⟨-, h⟩
        rw [eq_div_iff h0] at h
        have : m (c + 1) * (m c - 1) = 0 := by linarith
        rcases mul_eq_zero.1 this with h | h
        · exact .inr (.inr h)
        · exact .inr (.inl (by linarith))
      · rintro (h | h | h)
        · exact absurd rfl h
        · rw [h, div_one]; exact ⟨rfl, rfl⟩
        · rw [h, zero_div]; exact ⟨rfl, rfl⟩
    · rw [(C52_scale m hc).2.1]
      simp only [hc, ne_eq, not_false_eq_true, true_or, iff_true]
      rw [Complex.div_ofReal]; rfl

/-- C52: `proj` is 2z/(|z|²+1), of modulus at most 1; it is not the `proj` of the C++ library, which leaves finite numbers
unchanged. -/
theorem C52_proj (z : Xmm ℝ) :
    (Cpx.proj z).toC = 2 * z.toC / ((‖z.toC‖ ^ 2 + 1 : ℝ) : ℂ) ∧ ‖(Cpx.proj z).toC‖ ≤ 1 ∧
    ((Cpx.proj z).toC = z.toC ↔ z.toC = 0 ∨ ‖z.toC‖ = 1) := by
  have hn : z 0 * z 0 + z 1 * z 1 = ‖z.toC‖ ^ 2 := by
    rw [← Complex.normSq_eq_norm_sq, Complex.normSq_apply]; rfl
  have e : (Cpx.proj z).toC = 2 * z.toC / ((‖z.toC‖ ^ 2 + 1 : ℝ) : ℂ) := by
    rw [Complex.div_ofReal, ← hn]
    apply Complex.ext
    · show (2 : ℕ) * z 0 / (z 0 * z 0 + z 1 * z 1 + (1 : ℕ)) = _
      simp [Xmm.toC]
    · show (2 : ℕ) * z 1 / (z 0 * z 0 + z 1 * z 1 + (1 : ℕ)) = _
      simp [Xmm.toC]
  have hp : 0 < ‖z.toC‖ ^ 2 + 1 := by positivity
  refine ⟨e, ?_, ?_⟩
  · rw [e, norm_div, norm_mul, Complex.norm_real, Real.norm_of_nonneg hp.le, div_le_one hp]
    simp only [Complex.norm_ofNat]
    nlinarith [sq_nonneg (‖z.toC‖ - 1)]
  · rw [e, div_eq_iff (by exact_mod_cast hp.ne')]
    constructor
    · intro h
      by_cases h0 : z.toC = 0
      · exact .inl h0
      · right
        rw [mul_comm] at h
        have h2 := mul_left_cancel₀ h0 h
        have h3 : (2 : ℝ) = ‖z.toC‖ ^ 2 + 1 := by exact_mod_cast h2
        have h4 : (‖z.toC‖ - 1) * (‖z.toC‖ + 1) = 0 := by linarith
        rcases mul_eq_zero.1 h4 with h | h
        · linarith
        · have := norm_nonneg z.toC; linarith
    · rintro (h | h)
      · rw [h]; simp
      · rw [h]; push_cast; ring

/-- C52: `polar` and `abs`, `arg` are inverse to each other. -/
theorem C52_polar (z : Xmm ℝ) : (Cpx.polar (Cpx.abs z) (Cpx.arg z)).toC = z.toC := by
  have ha : Cpx.abs z = ‖z.toC‖ := by
    have hn : z 0 * z 0 + z 1 * z 1 = Complex.normSq z.toC := by rw [Complex.normSq_apply]; rfl
    show √(z 0 * z 0 + z 1 * z 1) = _
    rw [hn, Complex.normSq_eq_norm_sq, Real.sqrt_sq (norm_nonneg _)]
  rw [ha]
  apply Complex.ext
  · exact Complex.norm_mul_cos_arg z.toC
  · exact Complex.norm_mul_sin_arg z.toC

variable [Libm]

/-- C52: there is no `complex_t * double`: in `z * x` the double is converted to `complex_t(x)` first. In exact arithmetic
that is the same as `x * z`; in IEEE 754 arithmetic it makes the real part NaN if the imaginary part is infinite, whereas
`x * z` does not for `x ≠ 0`. -/
theorem C52_times_double :
    (∀ (z : Xmm ℝ) (x : ℝ), (Cpx.mul z (Cpx.ofDouble x)).toC = (Cpx.smul x z).toC) ∧
    ∀ (ρ : ℝ → ℝ) (Ω x y : ℝ) (s t u : Bool), 0 ≤ Ω → ρ 0 = 0 → x ≠ 0 →
      let z : Xmm (Ieee ρ Ω) := ![⟨.num y t⟩, ⟨.inf s⟩]
      (Cpx.mul z (Cpx.ofDouble ⟨.num x u⟩) 0).isNaN ∧ ¬ (Cpx.smul ⟨.num x u⟩ z 0).isNaN ∧ ¬ (Cpx.smul ⟨.num x u⟩ z 1).isNaN := by
  constructor
  · intro z x
    apply Complex.ext
    · show z 0 * x - z 1 * ((0 : ℕ) : ℝ) = x * z 0
      push_cast; ring
    · show z 0 * ((0 : ℕ) : ℝ) + z 1 * x = x * z 1
      push_cast; ring
  · intro ρ Ω x y s t u h0 hz hx z
    have h00 : Dbl.rnd ρ Ω ((0 : ℕ) : ℝ) false = .num 0 false := by
      rw [Dbl.rnd, Nat.cast_zero, hz, abs_zero, if_neg (by linarith), if_pos rfl]
    refine ⟨?_, ?_, ?_⟩
    · show Dbl.add ρ Ω (Dbl.mul ρ Ω (.num y t) (.num x u)) (Dbl.mul ρ Ω (.inf s) (Dbl.rnd ρ Ω ((0 : ℕ) : ℝ) false)).neg = .nan
      rw [h00]
      have : Dbl.mul ρ Ω (.inf s) (.num 0 false) = .nan := by simp [Dbl.mul]
      rw [this]
      cases Dbl.mul ρ Ω (.num y t) (.num x u) <;> rfl
    · show ¬ Dbl.rnd ρ Ω (x * y) _ = .nan
      rw [Dbl.rnd]; split_ifs <;> simp
    · show ¬ Dbl.mul ρ Ω (.num x u) (.inf s) = .nan
      rw [Dbl.mul, if_neg hx]; simp

/-! ### Examples -/

/-- three objects in an array; `z *= z` at address 2 -/
example (m : DMem ℝ) : ((m.mulAssign 2 2).cpx 2).toC = (m.cpx 2).toC ^ 2 ∧ (m.mulAssign 2 2).cpx 0 = m.cpx 0 ∧
    (m.mulAssign 2 2).cpx 4 = m.cpx 4 := by
  obtain ⟨h1, h2⟩ := (C52_assign m (.inl rfl : SameOrApart 2 2)).2.2
  refine ⟨by rw [h1, pow_two]; rfl, ?_, ?_⟩
  · rw [DMem.cpx, h2 0 (by omega) (by omega), h2 1 (by omega) (by omega)]; rfl
  · rw [DMem.cpx, h2 4 (by omega) (by omega), h2 5 (by omega) (by omega)]; rfl

/-- z = 3 + 4i: `z *= z.Re` is not 9 + 12 i -/
example : ((DMem.scaleAssign 0 0 fun l => if l = 0 then (3:ℝ) else 4).cpx 0).toC ≠ (⟨9, 12⟩ : ℂ) := by
  intro h
  have := ((C52_exact (fun l => if l = 0 then (3:ℝ) else 4) 0 0 0).2.1).1 (h.trans (Complex.ext (by simp [Xmm.toC, DMem.cpx]; norm_num) (by simp [Xmm.toC, DMem.cpx]; norm_num)))
  norm_num at this

end OTFFT.Props
