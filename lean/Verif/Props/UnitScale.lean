/-
C59: the constants of the unitary normalisation.
-/
import Verif.Proof.Newton
import Verif.Props.Accuracy

namespace OTFFT.Props

/-- C59: whatever double precision arithmetic the compiler uses (any tie-breaking rule), if the recursion of `mysqrt(N)` ends,
its result is finite and has a relative error of at most `2.6 · 2⁻⁵³`, for every `N` up to `2³¹`. -/
theorem C59_bound {F : Type} [FArith F] {val : F → ℝ} {fin : F → Prop} (hF : Binary64 F val fin) {N : ℕ} (h1 : 1 ≤ N)
    (h31 : N ≤ 2 ^ 31) {r : F} (h : IsMySqrt (fofNat N : F) r) :
    fin r ∧ |val r - √(N:ℝ)| ≤ 13 / 5 / 2 ^ 53 * √(N:ℝ) := by
  obtain ⟨a, b⟩ := Flt.isMySqrt_err (c := dblFlt hF) h1 h31 h
  refine ⟨a, le_trans b (le_of_eq ?_)⟩
  rw [show (dblFlt hF).u = 1 / 2 ^ 53 from rfl]
  ring

variable [Libm]

/-- C59: in IEEE 754 double precision the recursion ends for every power of two that fits an `int`, with exactly one
result: the exact square root for even exponents, `6369051672525772 · 2⁻⁵² · 2^j` for the odd exponent `2j + 1`. -/
theorem C59_constant {k : ℕ} (hk : k < 31) : ∃ r : Dbl64, IsMySqrt (fofNat (2 ^ k)) r ∧ (∀ r', IsMySqrt (fofNat (2 ^ k)) r' → r' = r) ∧
    mysqrt (fofNat (2 ^ k)) = r ∧
    r.val = if k % 2 = 0 then 2 ^ (k / 2) else 2 ^ (k / 2) * (6369051672525772 / 2 ^ 52) := by
  refine ⟨_, isMySqrt_pow hk, fun r' h => SqrtAux.unique h (isMySqrt_pow hk), (isMySqrt_pow hk).mysqrt_eq, ?_⟩
  show ((sqrtNat k : ℕ) : ℝ) / 2 ^ 60 = _
  rcases Nat.even_or_odd' k with ⟨j, rfl | rfl⟩
  · rw [sqrtNat_even, if_pos (by omega), show 2 * j / 2 = j by omega]
  · rw [sqrtNat_odd, if_neg (by omega), show (2 * j + 1) / 2 = j by omega]

/-- C59: the square root for an even exponent is exact. -/
theorem C59_even {j : ℕ} (hj : 2 * j < 31) : (mysqrt (fofNat (2 ^ (2 * j)) : Dbl64)).val = √((2:ℝ) ^ (2 * j)) := by
  obtain ⟨r, -, -, e, h⟩ := C59_constant hj
  rw [e, h, if_pos (by omega), sqrt_four_pow, show 2 * j / 2 = j by omega]

/-- C59: for an odd exponent it is not: it is the double just below the nearest one. -/
theorem C59_odd {j : ℕ} (hj : 2 * j + 1 < 31) :
    (mysqrt (fofNat (2 ^ (2 * j + 1)) : Dbl64)).val = rnd64 (√((2:ℝ) ^ (2 * j + 1))) - 2 ^ j / 2 ^ 52 ∧
      |rnd64 (√((2:ℝ) ^ (2 * j + 1))) - √((2:ℝ) ^ (2 * j + 1))| <
        |(mysqrt (fofNat (2 ^ (2 * j + 1)) : Dbl64)).val - √((2:ℝ) ^ (2 * j + 1))| := by
  obtain ⟨r, -, -, e, h⟩ := C59_constant hj
  have h' : (mysqrt (fofNat (2 ^ (2 * j + 1)) : Dbl64)).val = 2 ^ j * (6369051672525772 / 2 ^ 52) := by
    rw [e, h, if_neg (by omega), show (2 * j + 1) / 2 = j by omega]
  have hn : 1 / 2 ^ 1000 ≤ √((2:ℝ) ^ (2 * j + 1)) :=
    le_trans (div_le_one_of_le₀ (one_le_pow₀ (by norm_num)) (by positivity)) (Real.one_le_sqrt.2 (one_le_pow₀ (by norm_num)))
  rw [h', rnd64_eq hn, rnd53_sqrt_odd]
  refine ⟨by ring, ?_⟩
  have h1 : (12738103345051545:ℝ) / 2 ^ 53 < √2 := by
    rw [Real.lt_sqrt (by norm_num)]; norm_num
  have h2 : √2 < (12738103345051547:ℝ) / 2 ^ 53 := by
    rw [Real.sqrt_lt' (by norm_num)]; norm_num
  rw [sqrt_two_pow, ← mul_sub, ← mul_sub, abs_mul, abs_mul]
  refine mul_lt_mul_of_pos_left ?_ (by positivity)
  rw [abs_of_neg (a := (6369051672525772:ℝ) / 2 ^ 52 - √2) (by norm_num at *; linarith)]
  rw [abs_lt]
  constructor <;> norm_num at h1 h2 ⊢
  linarith

omit [Libm] in
theorem inv_sqrt_normal {k : ℕ} (hk : k < 31) : 1 / 2 ^ 1000 ≤ 1 / √((2:ℝ) ^ k) := by
  refine one_div_le_one_div_of_le (by positivity) ?_
  rw [Real.sqrt_le_left (by positivity), ← pow_mul]
  exact pow_le_pow_right₀ (by norm_num) (by omega)

omit [Libm] in
theorem inv_normal {k : ℕ} (hk : k < 31) : 1 / 2 ^ 1000 ≤ ((1:ℕ):ℝ) / (((sqrtNat k : ℕ) : ℝ) / 2 ^ 60) ∧
    ((1:ℕ):ℝ) / (((sqrtNat k : ℕ) : ℝ) / 2 ^ 60) ≤ 2 ^ 1000 := by
  have h : 2 ^ 59 ≤ sqrtNat k ∧ sqrtNat k ≤ 2 ^ 100 := by
    revert k
    decide +kernel
  have h1 : (2 ^ 59 : ℝ) ≤ (sqrtNat k : ℕ) := by exact_mod_cast h.1
  have h2 : ((sqrtNat k : ℕ) : ℝ) ≤ 2 ^ 100 := by exact_mod_cast h.2
  generalize ((sqrtNat k : ℕ) : ℝ) = s at h1 h2
  have hs : 0 < s := lt_of_lt_of_le (by norm_num) h1
  rw [Nat.cast_one]
  constructor
  · refine one_div_le_one_div_of_le (by positivity) (le_trans (div_le_self hs.le (one_le_pow₀ (by norm_num))) ?_)
    exact le_trans h2 (pow_le_pow_right₀ (by norm_num) (by norm_num))
  · refine le_trans ?_ (pow_le_pow_right₀ (by norm_num) (by norm_num : 1 ≤ 1000))
    rw [div_le_iff₀ (by positivity)]
    norm_num at h1 ⊢
    linarith

/-- C59: nevertheless the factor `1.0/mysqrt(N)` that the unitary transforms multiply with is the double nearest to `1/√N`, for
every power of two. -/
theorem C59_scale {k : ℕ} (hk : k < 31) : (fdiv (fofNat 1) (mysqrt (fofNat (2 ^ k))) : Dbl64).val = rnd64 (1 / √((2:ℝ) ^ k)) := by
  rw [(isMySqrt_pow hk).mysqrt_eq]
  obtain ⟨s1, s2⟩ := scale_runs k hk
  have hs : (0:ℝ) < (sqrtNat k : ℕ) := by
    have : 0 < sqrtNat k := by unfold sqrtNat; split <;> positivity
    exact_mod_cast this
  have e2 : (((1:ℕ):ℝ) / (((sqrtNat k : ℕ) : ℝ) / 2 ^ 60)) = 2 ^ (-100:ℤ) * (((2 ^ 160 : ℕ) : ℝ) / (sqrtNat k : ℕ)) := by
    rw [show ((2 ^ 160 : ℕ) : ℝ) = 2 ^ 100 * 2 ^ 60 by norm_num, show (2:ℝ) ^ (-100:ℤ) = 1 / 2 ^ 100 by norm_num]
    push_cast
    field_simp
  obtain ⟨b1, b2⟩ := inv_normal hk
  have e1 : (fdiv (fofNat 1) (fx (sqrtNat k)) : Dbl64).val = rnd53 (((1:ℕ):ℝ) / (((sqrtNat k : ℕ) : ℝ) / 2 ^ 60)) := by
    rw [fofNat_normal le_rfl (by norm_num), fx, div_normal b1 b2]
    rfl
  rw [e1, rnd64_eq (inv_sqrt_normal hk), e2, rnd53_scale, rnd53_nat s1, s2]
  rcases Nat.even_or_odd' k with ⟨j, rfl | rfl⟩
  · rw [if_pos (by omega), sqrt_four_pow, show 2 * j / 2 = j by omega]
    have : (1:ℝ) / 2 ^ j = 2 ^ (-(j:ℤ)) := by rw [zpow_neg, zpow_natCast, one_div]
    rw [this, rnd53_pow]
    push_cast
    rw [← zpow_natCast (2:ℝ) (100 - j), ← zpow_add₀ (by norm_num)]
    congr 1
    omega
  · rw [if_neg (by omega), rnd53_inv_odd, show (2 * j + 1) / 2 = j by omega]
    push_cast
    have e3 : (2:ℝ) ^ (-100:ℤ) = 1 / 2 ^ 53 * (1 / 2 ^ 47) := by norm_num
    have e4 : (2:ℝ) ^ 47 = 2 ^ (47 - j) * 2 ^ j := by rw [← pow_add]; congr 1; omega
    rw [e3, e4]
    field_simp

/-- C59: the factor `1.0/sqrt(N)` that the unitary transforms of real data multiply with, with the library's correctly rounded
`sqrt`, is not the nearest one for odd exponents: it is too small by one unit in the last place. -/
theorem C59_library {j : ℕ} (hj : 2 * j + 1 < 31) : (fdiv (fofNat 1) (fsqrt (fofNat (2 ^ (2 * j + 1)))) : Dbl64).val =
    rnd64 (1 / √((2:ℝ) ^ (2 * j + 1))) - 1 / 2 ^ j / 2 ^ 53 := by
  have hp : 2 ^ (2 * j + 1) < 2 ^ 53 := Nat.pow_lt_pow_right (by norm_num) (by omega)
  have e1 : √((2 ^ (2 * j + 1) : ℕ) : ℝ) = √((2:ℝ) ^ (2 * j + 1)) := by push_cast; rfl
  have es : fsqrt (fofNat (2 ^ (2 * j + 1)) : Dbl64) = ⟨.num (2 ^ j * (6369051672525773 / 2 ^ 52)) false⟩ := by
    rw [fofNat_normal Nat.one_le_two_pow hp]
    show (⟨Dbl.fn1 rnd64 maxDbl Real.sqrt {x | 0 ≤ x} (.num ((2 ^ (2 * j + 1) : ℕ) : ℝ) false)⟩ : Dbl64) = _
    rw [Dbl.fn1, if_pos (show ((2 ^ (2 * j + 1) : ℕ) : ℝ) ∈ {x : ℝ | 0 ≤ x} from Set.mem_setOf.2 (Nat.cast_nonneg (α := ℝ) _)), rnd_normal, e1, rnd53_sqrt_odd]
    · exact le_trans (div_le_one_of_le₀ (one_le_pow₀ (by norm_num)) (by positivity)) (by rw [e1]; exact Real.one_le_sqrt.2 (one_le_pow₀ (by norm_num)))
    · rw [e1, sqrt_two_pow]
      have h2 : √2 ≤ (2:ℝ) := by rw [Real.sqrt_le_left (by norm_num)]; norm_num
      refine le_trans (mul_le_mul_of_nonneg_left h2 (by positivity)) ?_
      rw [← pow_succ]
      exact pow_le_pow_right₀ (by norm_num) (by omega)
  have b0 : (1:ℝ) ≤ 2 ^ j := one_le_pow₀ (by norm_num)
  have b0' : (2:ℝ) ^ j ≤ 2 ^ 30 := pow_le_pow_right₀ (by norm_num) (by omega)
  have b1 : 1 / 2 ^ 1000 ≤ (((1:ℕ):ℝ) / (2 ^ j * (6369051672525773 / 2 ^ 52))) := by
    rw [Nat.cast_one]
    refine one_div_le_one_div_of_le (by positivity) (le_trans ?_ (pow_le_pow_right₀ (by norm_num) (by norm_num : 31 ≤ 1000)))
    norm_num at b0' ⊢
    linarith
  have b2 : (((1:ℕ):ℝ) / (2 ^ j * (6369051672525773 / 2 ^ 52))) ≤ 2 ^ 1000 := by
    refine le_trans ?_ (one_le_pow₀ (by norm_num))
    rw [Nat.cast_one]
    refine div_le_one_of_le₀ ?_ (by positivity)
    nlinarith
  rw [fofNat_normal le_rfl (by norm_num), es, div_normal b1 b2, rnd64_eq (inv_sqrt_normal hj), rnd53_inv_odd]
  show rnd53 (((1:ℕ):ℝ) / (2 ^ j * (6369051672525773 / 2 ^ 52))) = _
  have e2 : (((1:ℕ):ℝ) / (2 ^ j * (6369051672525773 / 2 ^ 52))) =
      2 ^ (-(j + 100 : ℕ) : ℤ) * (((2 ^ 152 : ℕ) : ℝ) / (6369051672525773 : ℕ)) := by
    rw [zpow_neg, zpow_natCast, pow_add, show ((2 ^ 152 : ℕ) : ℝ) = 2 ^ 52 * 2 ^ 100 by norm_num]
    push_cast
    field_simp
  have h : 2 ^ 52 ≤ 2 ^ 152 / 6369051672525773 ∧ rndNat (2 ^ 152) 6369051672525773 = 6369051672525772 * 2 ^ 47 := by
    decide +kernel
  rw [e2, rnd53_scale, rnd53_nat h.1, h.2, zpow_neg, zpow_natCast, pow_add]
  push_cast
  rw [show (2:ℝ) ^ 100 = 2 ^ 53 * 2 ^ 47 by norm_num]
  field_simp
  norm_num

/-! ### the hypotheses are met -/

/-- `mysqrt(2)` -/
example : IsMySqrt (fofNat (2 ^ 1) : Dbl64) ⟨.num (6369051672525772 / 2 ^ 52) false⟩ := by
  have := isMySqrt_pow (k := 1) (by norm_num)
  rwa [fx, sqrtNat_odd 0, pow_zero, one_mul] at this

/-- so the bound has instances -/
example : |(6369051672525772 / 2 ^ 52 : ℝ) - √((2 ^ 1 : ℕ) : ℝ)| ≤ 13 / 5 / 2 ^ 53 * √((2 ^ 1 : ℕ) : ℝ) := by
  obtain ⟨r, h, -, -, e⟩ := C59_constant (k := 1) (by norm_num)
  have := (C59_bound ieee_binary64 (by norm_num) (by norm_num) h).2
  rw [e] at this
  simpa using this

end OTFFT.Props
