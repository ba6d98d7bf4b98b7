/-
IEEE 754 binary64 satisfies the assumptions of the error analysis.
-/
import Verif.Spec.Binary64
import Mathlib.Analysis.Real.Pi.Bounds
import Mathlib.Tactic.NormNum

namespace OTFFT

theorem abs_sub_rne (y : ℝ) : |y - rne y| ≤ 1 / 2 := by
  have h := Int.self_sub_floor y
  have h0 := Int.fract_nonneg y
  have h1 := Int.fract_lt_one y
  unfold rne
  rw [abs_le]
  split
  · constructor <;> linarith
  · split
    · push_cast; constructor <;> linarith
    · split
      · constructor <;> linarith
      · push_cast; constructor <;> linarith

theorem rne_int (m : ℤ) : rne (m : ℝ) = m := by
  unfold rne; simp

/-- the nearest integer, if there is only one -/
theorem rne_near {y : ℝ} {m : ℤ} (h : |y - m| < 1 / 2) : rne y = m := by
  have h1 := abs_sub_rne y
  have h2 : |((rne y - m : ℤ) : ℝ)| < 1 := by
    push_cast
    calc |(rne y : ℝ) - m| = |(y - m) - (y - rne y)| := by ring_nf
      _ ≤ |y - m| + |y - rne y| := abs_sub _ _
      _ < 1 := by linarith
  have h3 : |rne y - m| < 1 := by exact_mod_cast h2
  have := Int.abs_lt_one_iff.1 h3
  omega

theorem rne_neg (y : ℝ) : rne (-y) = -rne y := by
  by_cases h : Int.fract y = 1 / 2
  · have h0 : Int.fract (-y) = 1 / 2 := by rw [Int.fract_neg (by rw [h]; norm_num), h]; norm_num
    have hf : ⌊-y⌋ = -⌊y⌋ - 1 := by
      have a := Int.self_sub_floor y
      have b := Int.self_sub_floor (-y)
      have : ((⌊-y⌋ : ℤ) : ℝ) = ((-⌊y⌋ - 1 : ℤ) : ℝ) := by push_cast; linarith
      exact_mod_cast this
    unfold rne
    rw [h, h0, hf, if_neg (lt_irrefl _), if_neg (lt_irrefl _), if_neg (lt_irrefl _), if_neg (lt_irrefl _)]
    by_cases e : Even ⌊y⌋
    · rw [if_pos e, if_neg (by rw [Int.even_sub_one]; simpa using e)]; ring
    · rw [if_neg e, if_pos (by rw [Int.even_sub_one]; simpa using e)]; ring
  · have key : |y - rne y| < 1 / 2 := by
      have a := Int.self_sub_floor y
      have h0 := Int.fract_nonneg y
      have h1 := Int.fract_lt_one y
      unfold rne
      rw [abs_lt]
      split
      · constructor <;> linarith
      · split
        · push_cast; constructor <;> linarith
        · exfalso; apply h; linarith
    apply rne_near
    push_cast
    rw [← abs_neg]
    convert key using 2
    ring

theorem lastPlace_neg (x : ℝ) : lastPlace (-x) = lastPlace x := by unfold lastPlace; rw [abs_neg]

theorem rnd64_neg (x : ℝ) : rnd64 (-x) = -rnd64 x := by
  unfold rnd64
  rw [lastPlace_neg, neg_div, rne_neg]
  push_cast
  ring

theorem rnd64_zero : rnd64 0 = 0 := by have := rnd64_neg 0; rw [neg_zero] at this; linarith

theorem two_zpow_pos (e : ℤ) : (0:ℝ) < 2 ^ e := by positivity

/-- error of rounding: half of the last place -/
theorem rnd64_half (x : ℝ) : |rnd64 x - x| ≤ 2 ^ lastPlace x / 2 := by
  have hp := two_zpow_pos (lastPlace x)
  have h := abs_sub_rne (x / 2 ^ lastPlace x)
  have e : rnd64 x - x = -((x / 2 ^ lastPlace x - rne (x / 2 ^ lastPlace x)) * 2 ^ lastPlace x) := by
    unfold rnd64
    rw [sub_mul, div_mul_cancel₀ _ hp.ne']; ring
  rw [e, abs_neg, abs_mul, abs_of_pos hp]
  calc _ ≤ 1 / 2 * (2:ℝ) ^ lastPlace x := mul_le_mul_of_nonneg_right h hp.le
    _ = _ := by ring

theorem log_le_abs {x : ℝ} (h : x ≠ 0) : (2:ℝ) ^ Int.log 2 |x| ≤ |x| := by
  exact_mod_cast Int.zpow_log_le_self (b := 2) (by norm_num) (abs_pos.2 h)

theorem abs_lt_log (x : ℝ) : |x| < (2:ℝ) ^ (Int.log 2 |x| + 1) := by
  exact_mod_cast Int.lt_zpow_succ_log_self (b := 2) (by norm_num) |x|

/-- no underflow: a relative error -/
theorem rnd64_rel {x : ℝ} (h : -1022 ≤ Int.log 2 |x|) : |rnd64 x - x| ≤ 1 / 2 ^ 53 * |x| := by
  rcases eq_or_ne x 0 with rfl | h0
  · rw [rnd64_zero]; simp
  have hl : lastPlace x = Int.log 2 |x| - 52 := by unfold lastPlace; omega
  have h1 := rnd64_half x
  rw [hl, zpow_sub₀ (by norm_num)] at h1
  refine le_trans h1 ?_
  have h2 := log_le_abs h0
  rw [show (2:ℝ) ^ Int.log 2 |x| / 2 ^ (52:ℤ) / 2 = 1 / 2 ^ 53 * 2 ^ Int.log 2 |x| by
    rw [show ((2:ℝ) ^ (52:ℤ)) = 2 ^ 52 by norm_cast]; ring]
  exact mul_le_mul_of_nonneg_left h2 (by positivity)

theorem eta_eq : (2:ℝ) ^ (-1074:ℤ) / 2 = 1 / 2 ^ 1075 := by
  rw [zpow_neg, zpow_ofNat, pow_succ _ 1074]
  generalize (2:ℝ) ^ 1074 = t
  rw [inv_eq_one_div, div_div]

theorem rnd64_err (x : ℝ) : |rnd64 x - x| ≤ 1 / 2 ^ 53 * |x| + 1 / 2 ^ 1075 := by
  rcases le_or_gt (-1022) (Int.log 2 |x|) with h | h
  · refine le_trans (rnd64_rel h) (le_add_of_nonneg_right (by positivity))
  · have h1 := rnd64_half x
    rw [show lastPlace x = -1074 by unfold lastPlace; omega, eta_eq] at h1
    exact le_trans h1 (le_add_of_nonneg_left (by positivity))

/-- multiples of the smallest double do not underflow -/
theorem rnd64_mult {x : ℝ} (h : ∃ m : ℤ, x = m * 2 ^ (-1074:ℤ)) : |rnd64 x - x| ≤ 1 / 2 ^ 53 * |x| := by
  rcases le_or_gt (-1022) (Int.log 2 |x|) with h' | h'
  · exact rnd64_rel h'
  · obtain ⟨m, hm⟩ := h
    have hl : lastPlace x = -1074 := by unfold lastPlace; omega
    have : rnd64 x = x := by
      unfold rnd64
      rw [hl]
      conv_lhs => rw [hm, mul_div_assoc, div_self (two_zpow_pos _).ne', mul_one, rne_int]
      exact hm.symm
    rw [this, sub_self, abs_zero]
    positivity

theorem maxDbl_eq : maxDbl = (2 ^ 53 - 1 : ℤ) * (2:ℝ) ^ (971:ℤ) := by
  unfold maxDbl
  rw [zpow_ofNat, show (1023:ℕ) = 971 + 52 by norm_num, pow_add]
  generalize (2:ℝ) ^ 971 = t
  norm_num
  ring

theorem IsDouble.le {x : ℝ} (h : IsDouble x) : |x| ≤ maxDbl := by
  obtain ⟨m, e, hm, -, he, rfl⟩ := h
  rw [abs_mul, abs_of_pos (two_zpow_pos e), maxDbl_eq]
  have h1 : ((|m| : ℤ) : ℝ) ≤ ((2 ^ 53 - 1 : ℤ) : ℝ) := Int.cast_le.2 (by omega)
  rw [Int.cast_abs] at h1
  exact mul_le_mul h1 (zpow_le_zpow_right₀ (by norm_num) he) (two_zpow_pos e).le (le_trans (abs_nonneg _) h1)

theorem IsDouble.mult {x : ℝ} (h : IsDouble x) : ∃ m : ℤ, x = m * 2 ^ (-1074:ℤ) := by
  obtain ⟨m, e, -, he, -, rfl⟩ := h
  obtain ⟨k, hk⟩ : ∃ k : ℕ, e = k + -1074 := ⟨(e + 1074).toNat, by omega⟩
  refine ⟨m * 2 ^ k, ?_⟩
  rw [hk, zpow_add₀ (by norm_num), zpow_natCast]
  push_cast
  ring

theorem IsDouble.neg {x : ℝ} (h : IsDouble x) : IsDouble (-x) := by
  obtain ⟨m, e, hm, h1, h2, rfl⟩ := h
  exact ⟨-m, e, by rwa [abs_neg], h1, h2, by push_cast; ring⟩

theorem IsDouble.nat {n : ℕ} (h : n < 2 ^ 53) : IsDouble n :=
  ⟨n, 0, by rw [Nat.abs_cast]; exact_mod_cast h, by norm_num, by norm_num, by simp⟩

/-- doubles are not changed by rounding -/
theorem IsDouble.rnd {x : ℝ} (h : IsDouble x) : rnd64 x = x := by
  rcases eq_or_ne x 0 with rfl | h0
  · exact rnd64_zero
  obtain ⟨m, e, hm, h1, h2, hx⟩ := h
  have hl : Int.log 2 |x| < e + 53 := by
    have a := log_le_abs h0
    have b : |x| < (2:ℝ) ^ (e + 53) := by
      rw [hx, abs_mul, abs_of_pos (two_zpow_pos e), zpow_add₀ (by norm_num), mul_comm]
      refine mul_lt_mul_of_pos_left ?_ (two_zpow_pos e)
      rw [← Int.cast_abs]
      exact_mod_cast hm
    exact (zpow_lt_zpow_iff_right₀ (by norm_num)).1 (lt_of_le_of_lt a b)
  have hq : lastPlace x ≤ e := by unfold lastPlace; omega
  obtain ⟨k, hk⟩ : ∃ k : ℕ, e = k + lastPlace x := ⟨(e - lastPlace x).toNat, by omega⟩
  have hp := two_zpow_pos (lastPlace x)
  unfold rnd64
  have e1 : x / 2 ^ lastPlace x = ((m * 2 ^ k : ℤ) : ℝ) := by
    rw [div_eq_iff hp.ne']
    conv_lhs => rw [hx, hk, zpow_add₀ (by norm_num), zpow_natCast]
    push_cast
    ring
  rw [e1, rne_int, ← e1, div_mul_cancel₀ _ hp.ne']

/-- results up to the largest double are rounded to doubles -/
theorem rnd64_double {x : ℝ} (h : |x| ≤ maxDbl) : IsDouble (rnd64 x) := by
  rcases eq_or_ne x 0 with rfl | h0
  · rw [rnd64_zero]; exact ⟨0, 0, by norm_num, by norm_num, by norm_num, by simp⟩
  set q := lastPlace x with hq
  have hp := two_zpow_pos q
  have hlog : Int.log 2 |x| ≤ 1023 := by
    have a := log_le_abs h0
    have b : |x| < (2:ℝ) ^ (1024:ℤ) := by
      refine lt_of_le_of_lt h ?_
      rw [maxDbl_eq, show (1024:ℤ) = 53 + 971 by norm_num, zpow_add₀ (by norm_num)]
      refine mul_lt_mul_of_pos_right ?_ (two_zpow_pos _)
      norm_num
    have := (zpow_lt_zpow_iff_right₀ (by norm_num)).1 (lt_of_le_of_lt a b)
    omega
  have hq1 : q ≤ 971 := by rw [hq]; unfold lastPlace; omega
  have hq2 : -1074 ≤ q := by rw [hq]; unfold lastPlace; omega
  have hq3 : Int.log 2 |x| + 1 ≤ q + 53 := by rw [hq]; unfold lastPlace; omega
  have hy : |x / 2 ^ q| < 2 ^ 53 := by
    rw [abs_div, abs_of_pos hp, div_lt_iff₀ hp]
    refine lt_of_lt_of_le (abs_lt_log x) ?_
    rw [mul_comm, show ((2:ℝ) ^ 53) = 2 ^ (53:ℤ) by norm_cast, ← zpow_add₀ (by norm_num)]
    exact zpow_le_zpow_right₀ (by norm_num) hq3
  have hr := abs_sub_rne (x / 2 ^ q)
  have hm : |rne (x / 2 ^ q)| ≤ 2 ^ 53 := by
    have : |(rne (x / 2 ^ q) : ℝ)| < 2 ^ 53 + 1 := by
      calc |(rne (x / 2 ^ q) : ℝ)| = |x / 2 ^ q - (x / 2 ^ q - rne (x / 2 ^ q))| := by ring_nf
        _ ≤ _ := abs_sub _ _
        _ < _ := by linarith
    rw [← Int.cast_abs] at this
    have := (by exact_mod_cast this : |rne (x / 2 ^ q)| < 2 ^ 53 + 1)
    omega
  rcases lt_or_eq_of_le hm with hlt | heq
  · exact ⟨_, q, hlt, hq2, hq1, rfl⟩
  · have hq4 : q < 971 := by
      refine lt_of_le_of_ne hq1 fun e => ?_
      have : |x / 2 ^ q| ≤ 2 ^ 53 - 1 := by
        rw [abs_div, abs_of_pos hp, div_le_iff₀ hp, e]
        rw [maxDbl_eq] at h
        refine le_trans h (le_of_eq ?_)
        congr 1
        norm_num
      have h2 : |(rne (x / 2 ^ q) : ℝ)| < 2 ^ 53 := by
        calc |(rne (x / 2 ^ q) : ℝ)| = |x / 2 ^ q - (x / 2 ^ q - rne (x / 2 ^ q))| := by ring_nf
          _ ≤ _ := abs_sub _ _
          _ < _ := by linarith
      rw [← Int.cast_abs] at h2
      have := (by exact_mod_cast h2 : |rne (x / 2 ^ q)| < 2 ^ 53)
      omega
    have hs : ∃ m : ℤ, |m| < 2 ^ 53 ∧ rne (x / 2 ^ q) = m * 2 := by
      rcases abs_eq (a := rne (x / 2 ^ q)) (b := 2 ^ 53) (by norm_num) |>.1 heq with e | e
      · exact ⟨2 ^ 52, by norm_num, by rw [e]; norm_num⟩
      · exact ⟨-2 ^ 52, by norm_num, by rw [e]; norm_num⟩
    obtain ⟨m, hm1, hm2⟩ := hs
    refine ⟨m, q + 1, hm1, by omega, by omega, ?_⟩
    show (rne (x / 2 ^ q) : ℝ) * 2 ^ q = _
    rw [hm2, zpow_add₀ (by norm_num)]
    push_cast
    ring

/-- no overflow: the result is a finite double -/
theorem Dbl.rnd_fin {x : ℝ} (h : |x| ≤ maxDbl) (z : Bool) :
    ∃ z', Dbl.rnd rnd64 maxDbl x z = .num (rnd64 x) z' ∧ IsDouble (rnd64 x) := by
  have hd := rnd64_double h
  unfold Dbl.rnd
  rw [if_neg (not_lt.2 hd.le)]
  exact ⟨_, rfl, hd⟩

variable [Libm]

omit [Libm] in
theorem Ieee.val_num {x : ℝ} {z : Bool} : (⟨.num x z⟩ : Dbl64).val = x := rfl

omit [Libm] in
/-- an operation without overflow -/
theorem Dbl64.of_rnd {x : ℝ} (h : |x| ≤ maxDbl) (z : Bool) :
    Dbl64.Finite ⟨Dbl.rnd rnd64 maxDbl x z⟩ ∧ (⟨Dbl.rnd rnd64 maxDbl x z⟩ : Dbl64).val = rnd64 x := by
  obtain ⟨z', e, hd⟩ := Dbl.rnd_fin h z
  rw [e]
  exact ⟨⟨_, _, rfl, hd⟩, rfl⟩

omit [Libm] in
theorem one_le_maxDbl : (2 ^ 53 : ℝ) ≤ maxDbl := by
  rw [maxDbl_eq, zpow_ofNat]
  have h1 : (2:ℝ) ^ 1 ≤ 2 ^ 971 := pow_le_pow_right₀ (by norm_num) (by norm_num)
  generalize (2:ℝ) ^ 971 = t at h1
  norm_num at h1 ⊢
  linarith

omit [Libm] in
theorem maxDbl_nonneg : 0 ≤ maxDbl := le_trans (by norm_num) one_le_maxDbl

omit [Libm] in
theorem log_ge_of {x : ℝ} {e : ℤ} (h : (2:ℝ) ^ e ≤ |x|) : e ≤ Int.log 2 |x| := by
  have h0 : 0 < |x| := lt_of_lt_of_le (two_zpow_pos e) h
  exact (Int.zpow_le_iff_le_log (b := 2) (by norm_num) h0).1 (by exact_mod_cast h)

omit [Libm] in
/-- a literal that rounds to the same double as the number it stands for -/
theorem rnd64_lit {x y : ℝ} (e : ℕ) (m : ℤ) (he : e ≤ 1074) (h1 : 2 ^ 52 < |m|) (h2 : |m| < 2 ^ 53)
    (hx : |x * 2 ^ e - m| < 1 / 2) (hy : |y * 2 ^ e - m| < 1 / 2) : |rnd64 x - y| ≤ 1 / 2 ^ 53 * |y| := by
  have hp : (0:ℝ) < 2 ^ e := by positivity
  have a1 : (2 ^ 52 + 1 : ℝ) ≤ |(m:ℝ)| := by rw [← Int.cast_abs]; exact_mod_cast h1
  have a2 : |(m:ℝ)| ≤ 2 ^ 53 - 1 := by rw [← Int.cast_abs, le_sub_iff_add_le]; exact_mod_cast h2
  have up : ∀ t : ℝ, |t * 2 ^ e - m| < 1 / 2 → (2 ^ 52 : ℝ) ≤ |t| * 2 ^ e ∧ |t| * 2 ^ e < 2 ^ 53 := fun t ht => by
    have em : |t| * 2 ^ e = |t * 2 ^ e| := by rw [abs_mul, abs_of_pos hp]
    rw [em]
    have b := abs_sub_abs_le_abs_sub (t * 2 ^ e) (m:ℝ)
    have b' := abs_sub_abs_le_abs_sub (m:ℝ) (t * 2 ^ e)
    rw [abs_sub_comm] at b'
    constructor <;> linarith
  have hl : lastPlace x = -e := by
    obtain ⟨b1, b2⟩ := up x hx
    have hx0 : x ≠ 0 := by rintro rfl; norm_num at b1
    have c1 : (52:ℤ) - e ≤ Int.log 2 |x| := log_ge_of (by
      rw [zpow_sub₀ (by norm_num), zpow_natCast, div_le_iff₀ hp, zpow_ofNat]; exact b1)
    have c2 : Int.log 2 |x| < 53 - e := by
      refine (zpow_lt_zpow_iff_right₀ (show (1:ℝ) < 2 by norm_num)).1 (lt_of_le_of_lt (log_le_abs hx0) ?_)
      rw [zpow_sub₀ (by norm_num), zpow_natCast, lt_div_iff₀ hp, zpow_ofNat]; exact b2
    unfold lastPlace
    omega
  have hr : rnd64 x = m / 2 ^ e := by
    unfold rnd64
    rw [hl, zpow_neg, zpow_natCast, div_inv_eq_mul, rne_near hx]
    rfl
  obtain ⟨b1, -⟩ := up y hy
  rw [hr, show (m:ℝ) / 2 ^ e - y = -((y * 2 ^ e - m) / 2 ^ e) by field_simp; ring, abs_neg, abs_div, abs_of_pos hp,
    div_le_iff₀ hp]
  generalize (2:ℝ) ^ e = t at b1 hy
  have : |y| * t * (1 / 2 ^ 53) ≥ 2 ^ 52 * (1 / 2 ^ 53) := mul_le_mul_of_nonneg_right b1 (by positivity)
  norm_num at this hy ⊢
  linarith

omit [Libm] in
/-- the literals of the source and the doubles they stand for -/
theorem lits : (|(litSqrt1_2:ℝ) * 2 ^ 53 - (6369051672525773 : ℤ)| < 1 / 2 ∧ |√2 / 2 * 2 ^ 53 - (6369051672525773 : ℤ)| < 1 / 2) ∧
    (|(litH1X:ℝ) * 2 ^ 53 - (8321567036706118 : ℤ)| < 1 / 2 ∧ |Real.cos (Real.pi / 8) * 2 ^ 53 - (8321567036706118 : ℤ)| < 1 / 2) ∧
    (|(litH1Y:ℝ) * 2 ^ 54 - (-6893811853601123 : ℤ)| < 1 / 2 ∧ |-Real.sin (Real.pi / 8) * 2 ^ 54 - (-6893811853601123 : ℤ)| < 1 / 2) ∧
    (|(litPi:ℝ) * 2 ^ 51 - (7074237752028440 : ℤ)| < 1 / 2 ∧ |Real.pi * 2 ^ 51 - (7074237752028440 : ℤ)| < 1 / 2) := by
  have h2 : ((1.41421356237309504880168872420969807856 : ℝ)) < √2 := by
    rw [Real.lt_sqrt (by norm_num)]; norm_num
  have h2' : √2 < (1.41421356237309504880168872420969807857 : ℝ) := by
    rw [Real.sqrt_lt' (by norm_num)]; norm_num
  refine ⟨⟨?_, ?_⟩, ⟨?_, ?_⟩, ⟨?_, ?_⟩, ?_, ?_⟩
  · rw [litSqrt1_2]; norm_num [abs_lt]
  · rw [abs_lt]; constructor <;> (norm_num; linarith)
  · rw [litH1X]; norm_num [abs_lt]
  · have e : Real.cos (Real.pi / 8) = √((2 + √2) / 4) := by
      rw [Real.cos_pi_div_eight, Real.sqrt_div (by positivity), show (4 : ℝ) = 2 ^ 2 by norm_num, Real.sqrt_sq (by norm_num)]
    have l : (8321567036706117.6 / 2 ^ 53 : ℝ) < √((2 + √2) / 4) := by
      rw [Real.lt_sqrt (by norm_num)]; norm_num; linarith
    have u : √((2 + √2) / 4) < (8321567036706118.4 / 2 ^ 53 : ℝ) := by
      rw [Real.sqrt_lt' (by norm_num)]; norm_num; linarith
    rw [e, abs_lt]
    norm_num at l u ⊢
    constructor <;> linarith
  · rw [litH1Y]; norm_num [abs_lt]
  · have e : Real.sin (Real.pi / 8) = √((2 - √2) / 4) := by
      rw [Real.sin_pi_div_eight, Real.sqrt_div (by linarith), show (4 : ℝ) = 2 ^ 2 by norm_num, Real.sqrt_sq (by norm_num)]
    have l : (6893811853601122.6 / 2 ^ 54 : ℝ) < √((2 - √2) / 4) := by
      rw [Real.lt_sqrt (by norm_num)]; norm_num; linarith
    have u : √((2 - √2) / 4) < (6893811853601123.4 / 2 ^ 54 : ℝ) := by
      rw [Real.sqrt_lt' (by norm_num)]; norm_num; linarith
    rw [e, abs_lt]
    norm_num at l u ⊢
    constructor <;> linarith
  · rw [litPi]; norm_num [abs_lt]
  · have := Real.pi_gt_d20
    have := Real.pi_lt_d20
    rw [abs_lt]
    constructor <;> (norm_num; linarith)

omit [Libm] in
/-- magnitudes up to 8 do not overflow -/
theorem small_le {x : ℝ} (h : |x| ≤ 8) : |x| ≤ maxDbl := le_trans h (le_trans (by norm_num) one_le_maxDbl)

omit [Libm] in
theorem trig_err {x : ℝ} (h : |x| ≤ 1) : |rnd64 x - x| ≤ 2 * (1 / 2 ^ 53) := by
  refine le_trans (rnd64_err x) ?_
  have h1 : (1:ℝ) / 2 ^ 1075 ≤ 1 / 2 ^ 53 := one_div_le_one_div_of_le (by positivity) (pow_le_pow_right₀ (by norm_num) (by norm_num))
  have h2 : (1:ℝ) / 2 ^ 53 * |x| ≤ 1 / 2 ^ 53 := mul_le_of_le_one_right (by positivity) h
  linarith

/-- correctly rounded functions are an instance -/
noncomputable def Libm.nearest : Libm where
  cos x := rnd64 (Real.cos x)
  sin x := rnd64 (Real.sin x)
  cos_double x := rnd64_double (small_le (le_trans (Real.abs_cos_le_one x) (by norm_num)))
  sin_double x := rnd64_double (small_le (le_trans (Real.abs_sin_le_one x) (by norm_num)))
  cos_err x _ := le_trans (trig_err (Real.abs_cos_le_one x)) (by norm_num)
  sin_err x _ := le_trans (trig_err (Real.abs_sin_le_one x)) (by norm_num)
  cos_zero := by rw [Real.cos_zero]; simpa using IsDouble.rnd (IsDouble.nat (n := 1) (by norm_num))
  sin_zero := by rw [Real.sin_zero, rnd64_zero]

/-- IEEE 754 binary64 satisfies the assumptions of the error analysis. -/
theorem ieee_binary64 : Binary64 Dbl64 Ieee.val Dbl64.Finite where
  add := by
    rintro ⟨a⟩ ⟨b⟩ ⟨x, z, rfl : a = _, hx⟩ ⟨y, z', rfl : b = _, hy⟩ h
    obtain ⟨f, v⟩ := Dbl64.of_rnd (show |x + y| ≤ maxDbl from h) (Dbl.zsum (.num x z) (.num y z'))
    refine ⟨f, ?_⟩
    show |(⟨Dbl.rnd rnd64 maxDbl (x + y) _⟩ : Dbl64).val - (x + y)| ≤ 1 / 2 ^ 53 * |x + y|
    rw [v]
    obtain ⟨m, rfl⟩ := hx.mult
    obtain ⟨k, rfl⟩ := hy.mult
    exact rnd64_mult ⟨m + k, by push_cast; ring⟩
  sub := by
    rintro ⟨a⟩ ⟨b⟩ ⟨x, z, rfl : a = _, hx⟩ ⟨y, z', rfl : b = _, hy⟩ h
    have h' : |x + -y| ≤ maxDbl := by rw [← sub_eq_add_neg]; exact h
    obtain ⟨f, v⟩ := Dbl64.of_rnd h' (Dbl.zsum (.num x z) (.num (-y) (!z')))
    refine ⟨f, ?_⟩
    show |(⟨Dbl.rnd rnd64 maxDbl (x + -y) _⟩ : Dbl64).val - (x - y)| ≤ 1 / 2 ^ 53 * |x - y|
    rw [v]
    obtain ⟨m, rfl⟩ := hx.mult
    obtain ⟨k, rfl⟩ := hy.mult
    have := rnd64_mult (x := m * 2 ^ (-1074:ℤ) - k * 2 ^ (-1074:ℤ)) ⟨m - k, by push_cast; ring⟩
    rwa [sub_eq_add_neg] at this
  mul := by
    rintro ⟨a⟩ ⟨b⟩ ⟨x, z, rfl : a = _, hx⟩ ⟨y, z', rfl : b = _, hy⟩ h
    obtain ⟨f, v⟩ := Dbl64.of_rnd (show |x * y| ≤ maxDbl from h) (Dbl.sgn (.num x z) != Dbl.sgn (.num y z'))
    refine ⟨f, ?_⟩
    show |(⟨Dbl.rnd rnd64 maxDbl (x * y) _⟩ : Dbl64).val - x * y| ≤ 1 / 2 ^ 53 * |x * y| + 1 / 2 ^ 1075
    rw [v]
    exact rnd64_err _
  div := by
    rintro ⟨a⟩ ⟨b⟩ ⟨x, z, rfl : a = _, hx⟩ ⟨y, z', rfl : b = _, hy⟩ h0 h
    obtain ⟨f, v⟩ := Dbl64.of_rnd (show |x / y| ≤ maxDbl from h) (Dbl.sgn (.num x z) != Dbl.sgn (.num y z'))
    have e : fdiv (⟨.num x z⟩ : Dbl64) ⟨.num y z'⟩ = ⟨Dbl.rnd rnd64 maxDbl (x / y) (Dbl.sgn (.num x z) != Dbl.sgn (.num y z'))⟩ := by
      show (⟨if y = 0 then _ else _⟩ : Dbl64) = _
      rw [if_neg (show ¬ y = 0 from h0)]
    rw [e]
    refine ⟨f, ?_⟩
    rw [v]
    exact rnd64_err _
  fma := by
    rintro ⟨a⟩ ⟨b⟩ ⟨c⟩ ⟨x, z, rfl : a = _, hx⟩ ⟨y, z', rfl : b = _, hy⟩ ⟨t, z'', rfl : c = _, ht⟩ h
    obtain ⟨f, v⟩ := Dbl64.of_rnd (show |x * y + t| ≤ maxDbl from h)
      ((Dbl.sgn (.num x z) != Dbl.sgn (.num y z')) && Dbl.sgn (.num t z''))
    refine ⟨f, ?_⟩
    show |(⟨Dbl.rnd rnd64 maxDbl (x * y + t) _⟩ : Dbl64).val - (x * y + t)| ≤ 1 / 2 ^ 53 * |x * y + t| + 1 / 2 ^ 1075
    rw [v]
    exact rnd64_err _
  fms := by
    rintro ⟨a⟩ ⟨b⟩ ⟨c⟩ ⟨x, z, rfl : a = _, hx⟩ ⟨y, z', rfl : b = _, hy⟩ ⟨t, z'', rfl : c = _, ht⟩ h
    have h' : |x * y + -t| ≤ maxDbl := by rw [← sub_eq_add_neg]; exact h
    obtain ⟨f, v⟩ := Dbl64.of_rnd h' ((Dbl.sgn (.num x z) != Dbl.sgn (.num y z')) && Dbl.sgn (.num (-t) (!z'')))
    refine ⟨f, ?_⟩
    show |(⟨Dbl.rnd rnd64 maxDbl (x * y + -t) _⟩ : Dbl64).val - (x * y - t)| ≤ 1 / 2 ^ 53 * |x * y - t| + 1 / 2 ^ 1075
    rw [v, sub_eq_add_neg (x * y)]
    exact rnd64_err _
  sqrt := by
    rintro ⟨a⟩ ⟨x, z, rfl : a = _, hx⟩ (h0 : 0 ≤ x)
    have e : fsqrt (⟨.num x z⟩ : Dbl64) = ⟨Dbl.rnd rnd64 maxDbl (√x) z⟩ := by
      show (⟨if x ∈ {x : ℝ | 0 ≤ x} then _ else _⟩ : Dbl64) = _
      rw [if_pos (show x ∈ {x : ℝ | 0 ≤ x} from h0)]
    have hle : |√x| ≤ maxDbl := by
      rw [abs_of_nonneg (Real.sqrt_nonneg _)]
      rcases le_total x 1 with h | h
      · exact le_trans (Real.sqrt_le_one.2 h) (le_trans (by norm_num) one_le_maxDbl)
      · refine le_trans ?_ (le_trans (le_abs_self x) hx.le)
        exact Real.sqrt_le_iff.2 ⟨h0, by nlinarith⟩
    obtain ⟨f, v⟩ := Dbl64.of_rnd hle z
    rw [e]
    refine ⟨f, ?_⟩
    rw [v]
    show |rnd64 (√x) - √x| ≤ 1 / 2 ^ 53 * √x
    rcases h0.eq_or_lt with rfl | hpos
    · rw [Real.sqrt_zero, rnd64_zero]; simp
    have hlow : (2:ℝ) ^ (-537:ℤ) ≤ √x := by
      refine Real.le_sqrt_of_sq_le ?_
      obtain ⟨m, hm⟩ := hx.mult
      have hm0 : 1 ≤ m := by
        have : (0:ℝ) < m := by
          rw [hm] at hpos
          exact (mul_pos_iff_of_pos_right (two_zpow_pos _)).1 hpos
        exact_mod_cast this
      have e2 : ((2:ℝ) ^ (-537:ℤ)) ^ 2 = 2 ^ (-1074:ℤ) := by
        rw [← zpow_natCast, ← zpow_mul]; norm_num
      rw [e2, hm]
      exact le_mul_of_one_le_left (two_zpow_pos _).le (by exact_mod_cast hm0)
    have habs : |√x| = √x := abs_of_nonneg (Real.sqrt_nonneg _)
    have := rnd64_rel (x := √x) (by
      refine le_trans (by norm_num) (log_ge_of (e := -537) ?_)
      rw [habs]; exact hlow)
    rwa [habs] at this
  neg := by
    rintro ⟨a⟩ ⟨x, z, rfl : a = _, hx⟩
    exact ⟨⟨-x, !z, rfl, hx.neg⟩, rfl⟩
  ofNat := by
    intro n hn
    have hn' : (n:ℝ) ≤ 2 ^ 53 := by
      rw [mul_one_div, div_le_one (by positivity)] at hn; exact hn
    have hd : IsDouble n := by
      rcases lt_or_eq_of_le (by exact_mod_cast hn' : n ≤ 2 ^ 53) with h | h
      · exact .nat h
      · exact ⟨2 ^ 52, 1, by norm_num, by norm_num, by norm_num, by rw [h]; norm_num⟩
    obtain ⟨f, v⟩ := Dbl64.of_rnd hd.le false
    refine ⟨f, ?_⟩
    show (⟨Dbl.rnd rnd64 maxDbl n false⟩ : Dbl64).val = n
    rw [v, hd.rnd]
  cos := by
    rintro ⟨a⟩ ⟨x, z, rfl : a = _, hx⟩ h8
    have e : fcos (⟨.num x z⟩ : Dbl64) = ⟨Dbl.rnd rnd64 maxDbl (Libm.cos x) z⟩ := by
      show (⟨Dbl.fn1 rnd64 maxDbl Libm.cos Set.univ (.num x z)⟩ : Dbl64) = _
      rw [Dbl.fn1, if_pos (Set.mem_univ x)]
    obtain ⟨f, v⟩ := Dbl64.of_rnd (Libm.cos_double x).le z
    rw [e]
    refine ⟨f, ?_⟩
    rw [v, (Libm.cos_double x).rnd]
    exact le_trans (Libm.cos_err x h8) (by norm_num)
  sin := by
    rintro ⟨a⟩ ⟨x, z, rfl : a = _, hx⟩ h8
    have e : fsin (⟨.num x z⟩ : Dbl64) = ⟨Dbl.rnd rnd64 maxDbl (Libm.sin x) z⟩ := by
      show (⟨Dbl.fn1 rnd64 maxDbl Libm.sin Set.univ (.num x z)⟩ : Dbl64) = _
      rw [Dbl.fn1, if_pos (Set.mem_univ x)]
    obtain ⟨f, v⟩ := Dbl64.of_rnd (Libm.sin_double x).le z
    rw [e]
    refine ⟨f, ?_⟩
    rw [v, (Libm.sin_double x).rnd]
    exact le_trans (Libm.sin_err x h8) (by norm_num)
  pi := by
    have h3 := Real.pi_gt_three
    have h4 := Real.pi_lt_four
    have ha : |Real.pi| = Real.pi := abs_of_pos (by linarith)
    obtain ⟨f, v⟩ := Dbl64.of_rnd (small_le (x := Real.pi) (by rw [ha]; linarith)) false
    refine ⟨f, ?_⟩
    show |(⟨Dbl.rnd rnd64 maxDbl Real.pi false⟩ : Dbl64).val - Real.pi| ≤ _
    rw [v]
    have := rnd64_rel (x := Real.pi) (by
      refine le_trans (by norm_num) (log_ge_of (e := 0) ?_)
      rw [ha]; norm_num; linarith)
    rwa [ha] at this
  sqrt1_2 := by
    obtain ⟨f, v⟩ := Dbl64.of_rnd (small_le (x := litSqrt1_2) (by rw [litSqrt1_2]; norm_num [abs_le])) false
    refine ⟨f, ?_⟩
    show |(⟨Dbl.rnd rnd64 maxDbl litSqrt1_2 false⟩ : Dbl64).val - _| ≤ _
    rw [v]
    have := rnd64_lit (x := litSqrt1_2) (y := √2 / 2) 53 _ (by norm_num) (by norm_num) (by norm_num) lits.1.1 lits.1.2
    rwa [abs_of_nonneg (by positivity : (0:ℝ) ≤ √2 / 2)] at this
  h1x := by
    have hc : 0 ≤ Real.cos (Real.pi / 8) :=
      Real.cos_nonneg_of_mem_Icc ⟨by linarith [Real.pi_pos], by linarith [Real.pi_pos]⟩
    obtain ⟨f, v⟩ := Dbl64.of_rnd (small_le (x := litH1X) (by rw [litH1X]; norm_num [abs_le])) false
    refine ⟨f, ?_⟩
    show |(⟨Dbl.rnd rnd64 maxDbl litH1X false⟩ : Dbl64).val - _| ≤ _
    rw [v]
    have := rnd64_lit (x := litH1X) (y := Real.cos (Real.pi / 8)) 53 _ (by norm_num) (by norm_num) (by norm_num) lits.2.1.1 lits.2.1.2
    rwa [abs_of_nonneg hc] at this
  h1y := by
    have hs : 0 ≤ Real.sin (Real.pi / 8) :=
      Real.sin_nonneg_of_nonneg_of_le_pi (by linarith [Real.pi_pos]) (by linarith [Real.pi_pos])
    obtain ⟨f, v⟩ := Dbl64.of_rnd (small_le (x := litH1Y) (by rw [litH1Y]; norm_num [abs_le])) false
    refine ⟨f, ?_⟩
    show |(⟨Dbl.rnd rnd64 maxDbl litH1Y false⟩ : Dbl64).val - _| ≤ _
    rw [v]
    have := rnd64_lit (x := litH1Y) (y := -Real.sin (Real.pi / 8)) 54 _ (by norm_num) (by norm_num) (by norm_num) lits.2.2.1.1 lits.2.2.1.2
    rwa [abs_neg, abs_of_nonneg hs] at this

/-- and the sign laws -/
theorem ieee_signLaws : SignLaws Dbl64 where
  add_comm := by
    rintro ⟨a⟩ ⟨b⟩
    show (⟨Dbl.add rnd64 maxDbl a b⟩ : Dbl64) = ⟨Dbl.add rnd64 maxDbl b a⟩
    congr 1
    rcases a with _ | s | ⟨x, z⟩ <;> rcases b with _ | t | ⟨y, w⟩ <;> try rfl
    · show (if s = t then Dbl.inf s else .nan) = if t = s then .inf t else .nan
      by_cases h : s = t
      · rw [if_pos h, if_pos h.symm, h]
      · rw [if_neg h, if_neg (Ne.symm h)]
    · show Dbl.rnd _ _ (x + y) _ = Dbl.rnd _ _ (y + x) _
      rw [_root_.add_comm, Dbl.zsum, Dbl.zsum, Bool.and_comm]
  sub_eq _ _ := rfl
  mul_neg := by
    rintro ⟨a⟩ ⟨b⟩
    have sg : ∀ y w, Dbl.sgn (.num (-y) (!w)) = !Dbl.sgn (.num y w) := fun y w => by
      simp only [Dbl.sgn, neg_eq_zero]
      split
      · rfl
      · rename_i h
        rcases lt_or_gt_of_ne h with h | h
        · simp [h, not_lt.2 h.le]
        · simp [h, not_lt.2 h.le]
    show (⟨Dbl.mul rnd64 maxDbl a b.neg⟩ : Dbl64) = ⟨(Dbl.mul rnd64 maxDbl a b).neg⟩
    congr 1
    rcases a with _ | s | ⟨x, z⟩ <;> rcases b with _ | t | ⟨y, w⟩ <;> try rfl
    · show Dbl.inf _ = .inf _
      simp
    · show (if -y = 0 then Dbl.nan else .inf _) = Dbl.neg (if y = 0 then .nan else .inf _)
      rw [sg]
      by_cases h : y = 0
      · rw [if_pos h, if_pos (by rw [h, neg_zero])]; rfl
      · rw [if_neg h, if_neg (by simpa using h)]; show Dbl.inf _ = .inf _; simp
    · show (if x = 0 then Dbl.nan else .inf _) = Dbl.neg (if x = 0 then .nan else .inf _)
      by_cases h : x = 0
      · rw [if_pos h, if_pos h]; rfl
      · rw [if_neg h, if_neg h]; show Dbl.inf _ = .inf _; simp
    · show Dbl.rnd _ _ (x * -y) _ = Dbl.neg (Dbl.rnd _ _ (x * y) _)
      rw [sg, mul_neg]
      unfold Dbl.rnd
      rw [rnd64_neg, abs_neg]
      have hz : ∀ t : ℝ, t ≠ 0 → decide (-t < 0) = !decide (t < 0) := fun t ht => by
        rcases lt_or_gt_of_ne ht with h | h
        · simp [h, not_lt.2 h.le]
        · simp [h, not_lt.2 h.le]
      by_cases h0 : x * y = 0
      · rw [h0, rnd64_zero, abs_zero, if_neg (not_lt.2 (le_trans (by norm_num) one_le_maxDbl)), if_neg (not_lt.2 (le_trans (by norm_num) one_le_maxDbl)),
          if_pos neg_zero, if_pos rfl]
        show Dbl.num _ _ = .num _ _
        simp
      · by_cases hb : maxDbl < |rnd64 (x * y)|
        · rw [if_pos hb, if_pos hb, hz _ h0]; rfl
        · rw [if_neg hb, if_neg hb, if_neg h0, if_neg (by simpa using h0), hz _ h0]; rfl

end OTFFT
