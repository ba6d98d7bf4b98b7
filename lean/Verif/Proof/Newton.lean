/-
Rounding to 53 bits, ties to even, computed with natural numbers; the recursion `mysqrt` run in it.
-/
import Verif.Proof.Binary64
import Verif.Proof.MySqrt
import Mathlib.Algebra.Order.Floor.Semifield
import Mathlib.Data.Nat.Log

namespace OTFFT

/-- `p / q` to the nearest integer, ties to even -/
def rneDiv (p q : ℕ) : ℕ :=
  if 2 * (p % q) < q then p / q else if q < 2 * (p % q) then p / q + 1 else p / q + p / q % 2

theorem rne_div (p : ℕ) {q : ℕ} (hq : 0 < q) : rne ((p:ℝ) / q) = rneDiv p q := by
  have hq' : (0:ℝ) < q := by exact_mod_cast hq
  have hf : ⌊(p:ℝ) / q⌋ = ((p / q : ℕ) : ℤ) := by
    rw [Int.floor_eq_iff]
    constructor
    · rw [le_div_iff₀ hq']
      exact_mod_cast Nat.div_mul_le_self p q
    · rw [div_lt_iff₀ hq']
      have := Nat.lt_div_mul_add (a := p) hq
      have e : ((p / q : ℕ) + 1) * q = p / q * q + q := by ring
      exact_mod_cast (by rw [e]; exact this : p < ((p / q : ℕ) + 1) * q)
  have hr : Int.fract ((p:ℝ) / q) = ((p % q : ℕ) : ℝ) / q := by
    rw [← Int.self_sub_floor, hf, eq_div_iff hq'.ne', sub_mul, div_mul_cancel₀ _ hq'.ne', sub_eq_iff_eq_add]
    have := Nat.mod_add_div' p q
    have h2 : p = p % q + p / q * q := this.symm
    have h3 := congrArg (Nat.cast (R := ℝ)) h2
    push_cast at h3 ⊢
    exact h3
  have c1 : ((p % q : ℕ) : ℝ) / q < 1 / 2 ↔ 2 * (p % q) < q := by
    rw [div_lt_div_iff₀ hq' (by norm_num), one_mul, mul_comm]
    exact_mod_cast Iff.rfl
  have c2 : 1 / 2 < ((p % q : ℕ) : ℝ) / q ↔ q < 2 * (p % q) := by
    rw [div_lt_div_iff₀ (by norm_num) hq', one_mul, mul_comm _ (2:ℝ)]
    exact_mod_cast Iff.rfl
  unfold rne rneDiv
  rw [hf, hr]
  simp only [c1, c2]
  split
  · rfl
  · split
    · push_cast; rfl
    · split
      · rename_i h
        have := (Int.even_coe_nat _).1 h
        rw [Nat.even_iff] at this
        rw [this, Nat.add_zero]
      · rename_i h
        have : ¬ Even (p / q) := fun h' => h ((Int.even_coe_nat _).2 h')
        rw [Nat.even_iff] at this
        rw [show p / q % 2 = 1 by omega]
        push_cast; rfl

/-- `p / q ≥ 2^52` rounded to 53 bits -/
def rndNat (p q : ℕ) : ℕ := rneDiv p (q * 2 ^ (Nat.log2 (p / q) - 52)) * 2 ^ (Nat.log2 (p / q) - 52)

theorem rnd53_nat {p q : ℕ} (h : 2 ^ 52 ≤ p / q) : rnd53 ((p:ℝ) / q) = rndNat p q := by
  have hq : 0 < q := by
    rcases Nat.eq_zero_or_pos q with rfl | h'
    · simp at h
    · exact h'
  have hq' : (0:ℝ) < q := by exact_mod_cast hq
  have h1 : (1:ℝ) ≤ (p:ℝ) / q := by
    rw [le_div_iff₀ hq', one_mul]
    have := Nat.div_mul_le_self p q
    have : q ≤ p := le_trans (Nat.le_mul_of_pos_left q (by omega)) this
    exact_mod_cast this
  have hl : Int.log 2 |(p:ℝ) / q| = (Nat.log2 (p / q) : ℕ) := by
    rw [abs_of_pos (by linarith), Int.log_of_one_le_right _ h1, Nat.floor_div_eq_div, Nat.log2_eq_log_two]
  have h52 : 52 ≤ Nat.log2 (p / q) := by
    rw [Nat.log2_eq_log_two]
    exact (Nat.le_log_iff_pow_le (by norm_num) (by omega)).2 h
  unfold rnd53 rndNat
  rw [hl]
  have he : ((Nat.log2 (p / q) : ℕ) : ℤ) - 52 = ((Nat.log2 (p / q) - 52 : ℕ) : ℤ) := by omega
  rw [he, zpow_natCast, div_div]
  have := rne_div p (q := q * 2 ^ (Nat.log2 (p / q) - 52)) (by positivity)
  push_cast at this ⊢
  rw [this]
  push_cast
  ring

theorem rne_nat (m : ℕ) : rne m = m := by
  unfold rne
  rw [Int.fract_natCast, Int.floor_natCast]
  simp

theorem rnd53_zero : rnd53 0 = 0 := by simp [rnd53, rne]

theorem rnd53_scale (k : ℤ) (x : ℝ) : rnd53 (2 ^ k * x) = 2 ^ k * rnd53 x := by
  rcases eq_or_ne x 0 with rfl | h
  · simp [rnd53_zero]
  have hk : (0 : ℝ) < 2 ^ k := by positivity
  have h0 : 0 < |x| := abs_pos.2 h
  have hl : Int.log 2 |2 ^ k * x| = k + Int.log 2 |x| := by
    rw [abs_mul, abs_of_pos hk]
    have e1 : (2:ℝ) ^ Int.log 2 |x| ≤ |x| := by exact_mod_cast Int.zpow_log_le_self (b := 2) (by norm_num) h0
    have e2 : |x| < (2:ℝ) ^ (Int.log 2 |x| + 1) := by exact_mod_cast Int.lt_zpow_succ_log_self (b := 2) (by norm_num) |x|
    have hp : 0 < 2 ^ k * |x| := by positivity
    apply le_antisymm
    · rw [← Int.lt_add_one_iff, ← Int.lt_zpow_iff_log_lt (by norm_num) hp]
      push_cast
      rw [add_assoc, zpow_add₀ (by norm_num)]
      exact mul_lt_mul_of_pos_left e2 hk
    · rw [← Int.zpow_le_iff_le_log (by norm_num) hp]
      push_cast
      rw [zpow_add₀ (by norm_num)]
      exact mul_le_mul_of_nonneg_left e1 hk.le
  unfold rnd53
  rw [hl, show k + Int.log 2 |x| - 52 = k + (Int.log 2 |x| - 52) by ring, zpow_add₀ (by norm_num : (2:ℝ) ≠ 0),
    mul_div_mul_left _ _ hk.ne']
  ring

variable [Libm]

/-- the number `X / 2^60` -/
noncomputable def fx (X : ℕ) : Dbl64 := ⟨.num ((X:ℝ) / 2 ^ 60) false⟩

omit [Libm] in
theorem rnd64_eq {x : ℝ} (h1 : 1 / 2 ^ 1000 ≤ x) : rnd64 x = rnd53 x := by
  have hl : -1022 ≤ Int.log 2 |x| := by
    refine log_ge_of (le_trans ?_ (le_trans h1 (le_abs_self x)))
    rw [one_div, ← zpow_natCast, ← zpow_neg]
    exact zpow_le_zpow_right₀ (by norm_num) (by norm_num)
  unfold rnd64 rnd53 lastPlace
  rw [max_eq_left (by omega)]

omit [Libm] in
/-- far from overflow and underflow IEEE arithmetic is rounding to 53 bits -/
theorem rnd_normal {x : ℝ} (h1 : 1 / 2 ^ 1000 ≤ x) (h2 : x ≤ 2 ^ 1000) (z : Bool) :
    Dbl.rnd rnd64 maxDbl x z = .num (rnd53 x) false := by
  have h0 : 0 < x := lt_of_lt_of_le (by positivity) h1
  have hl : -1022 ≤ Int.log 2 |x| := by
    refine log_ge_of (le_trans ?_ (le_trans h1 (le_abs_self x)))
    rw [one_div, ← zpow_natCast, ← zpow_neg]
    exact zpow_le_zpow_right₀ (by norm_num) (by norm_num)
  have e := rnd64_eq h1
  have hm : ¬ maxDbl < |rnd64 x| := by
    have h := rnd64_rel hl
    have h3 : |rnd64 x| ≤ 2 * x := by
      have := abs_sub_abs_le_abs_sub (rnd64 x) x
      rw [abs_of_pos h0] at h this
      have : (1:ℝ) / 2 ^ 53 * x ≤ x := mul_le_of_le_one_left h0.le (by norm_num)
      linarith
    have h4 : (2:ℝ) * 2 ^ 1000 ≤ maxDbl := by
      rw [maxDbl_eq, zpow_ofNat, show (2:ℝ) ^ 1000 = 2 ^ 29 * 2 ^ 971 by rw [← pow_add]]
      have : (0:ℝ) < 2 ^ 971 := by positivity
      generalize (2:ℝ) ^ 971 = t at this
      norm_num
      linarith
    intro h
    linarith
  unfold Dbl.rnd
  rw [if_neg hm, e, if_neg h0.ne', decide_eq_false (by linarith)]

theorem fofNat_normal {N : ℕ} (h1 : 1 ≤ N) (h : N < 2 ^ 53) : (fofNat N : Dbl64) = ⟨.num N false⟩ := by
  show (⟨Dbl.rnd rnd64 maxDbl N false⟩ : Dbl64) = _
  have h1' : (1:ℝ) ≤ N := by exact_mod_cast h1
  have h' : (N:ℝ) ≤ 2 ^ 53 := by exact_mod_cast h.le
  have := (IsDouble.nat h).rnd
  have h2 : (1:ℝ) / 2 ^ 1000 ≤ N := le_trans (div_le_one_of_le₀ (one_le_pow₀ (by norm_num)) (by positivity)) h1'
  rw [rnd_normal h2 (le_trans h' (pow_le_pow_right₀ (by norm_num) (by norm_num))), ← rnd64_eq h2, this]

theorem div_normal {x y : ℝ} (h1 : 1 / 2 ^ 1000 ≤ x / y) (h2 : x / y ≤ 2 ^ 1000) :
    fdiv (⟨.num x false⟩ : Dbl64) ⟨.num y false⟩ = ⟨.num (rnd53 (x / y)) false⟩ := by
  have h0 : y ≠ 0 := by
    rintro rfl
    rw [div_zero] at h1
    exact absurd h1 (not_le.2 (by positivity))
  show (⟨if y = 0 then _ else _⟩ : Dbl64) = _
  rw [if_neg h0, rnd_normal h1 h2]

theorem add_normal {x y : ℝ} (h1 : 1 / 2 ^ 1000 ≤ x + y) (h2 : x + y ≤ 2 ^ 1000) :
    fadd (⟨.num x false⟩ : Dbl64) ⟨.num y false⟩ = ⟨.num (rnd53 (x + y)) false⟩ := by
  show (⟨Dbl.rnd rnd64 maxDbl (x + y) _⟩ : Dbl64) = _
  rw [rnd_normal h1 h2]

omit [Libm] in
/-- `p / q` units of `2^-60`, at least `2^-8` and less than `2^140`, is far from overflow and underflow -/
theorem normal_nat {p q : ℕ} (h1 : 2 ^ 52 ≤ p / q) (h2 : p / q < 2 ^ 200) :
    1 / 2 ^ 1000 ≤ (p:ℝ) / q / 2 ^ 60 ∧ (p:ℝ) / q / 2 ^ 60 ≤ 2 ^ 1000 := by
  have hq : 0 < q := by
    rcases Nat.eq_zero_or_pos q with rfl | h'
    · simp at h1
    · exact h'
  have hq' : (0:ℝ) < q := by exact_mod_cast hq
  have a1 : (1:ℝ) ≤ (p:ℝ) / q := by
    rw [le_div_iff₀ hq', one_mul]
    have := Nat.div_mul_le_self p q
    have : q ≤ p := le_trans (Nat.le_mul_of_pos_left q (by omega)) this
    exact_mod_cast this
  have a2 : (p:ℝ) / q ≤ 2 ^ 200 := by
    rw [div_le_iff₀ hq']
    have := (Nat.div_lt_iff_lt_mul hq).1 h2
    exact_mod_cast this.le
  constructor
  · rw [div_le_div_iff₀ (by positivity) (by positivity), one_mul]
    exact le_trans (pow_le_pow_right₀ (by norm_num) (by norm_num)) (le_mul_of_one_le_left (by positivity) a1)
  · exact le_trans (div_le_self (by linarith) (one_le_pow₀ (by norm_num))) (le_trans a2 (pow_le_pow_right₀ (by norm_num) (by norm_num)))

omit [Libm] in
theorem rnd53_fx {p q : ℕ} (h : 2 ^ 52 ≤ p / q) : rnd53 ((p:ℝ) / q / 2 ^ 60) = (rndNat p q : ℝ) / 2 ^ 60 := by
  have := rnd53_scale (-60) ((p:ℝ) / q)
  rw [rnd53_nat h] at this
  have e : (2:ℝ) ^ (-60:ℤ) = 1 / 2 ^ 60 := by norm_num
  rw [e] at this
  rw [div_eq_mul_one_div _ ((2:ℝ) ^ 60), mul_comm, this]
  ring

/-- one iteration, `(x + a/x)/2`, in units of `2^-60`, if all intermediate results are at least `2^-8` and below `2^140` -/
def newtonStep (N X : ℕ) : Option ℕ :=
  let q := rndNat (N * 2 ^ 120) X
  let s := rndNat (X + q) 1
  if (2 ^ 52 ≤ N * 2 ^ 120 / X ∧ N * 2 ^ 120 / X < 2 ^ 200) ∧ (2 ^ 52 ≤ (X + q) / 1 ∧ (X + q) / 1 < 2 ^ 200) ∧
    2 ^ 52 ≤ s / 2 ∧ s / 2 < 2 ^ 200 then some (rndNat s 2) else none

theorem newtonStep_sound {N X Z : ℕ} (h1N : 1 ≤ N) (hN : N < 2 ^ 53) (h : newtonStep N X = some Z) :
    fdiv (fadd (fx X) (fdiv (fofNat N) (fx X))) (fofNat 2) = fx Z := by
  unfold newtonStep at h
  simp only at h
  split at h
  · rename_i hc
    obtain ⟨⟨h1, h1'⟩, ⟨h2, h2'⟩, h3, h3'⟩ := hc
    injection h with h
    have hX : 0 < X := by
      rcases Nat.eq_zero_or_pos X with rfl | h'
      · simp at h1
      · exact h'
    have hX' : (0:ℝ) < X := by exact_mod_cast hX
    have e1 : fdiv (fofNat N) (fx X) = fx (rndNat (N * 2 ^ 120) X) := by
      have ee : ((N * 2 ^ 120 : ℕ) : ℝ) / X / 2 ^ 60 = (N:ℝ) / (X / 2 ^ 60) := by
        rw [Nat.cast_mul, show ((2 ^ 120 : ℕ) : ℝ) = 2 ^ 60 * 2 ^ 60 by norm_num]
        field_simp
      have hb := normal_nat h1 h1'
      have := rnd53_fx h1
      rw [ee] at hb this
      rw [fofNat_normal h1N hN, fx, fx, div_normal hb.1 hb.2, this]
    have e2 : fadd (fx X) (fx (rndNat (N * 2 ^ 120) X)) = fx (rndNat (X + rndNat (N * 2 ^ 120) X) 1) := by
      have ee : ((X + rndNat (N * 2 ^ 120) X : ℕ) : ℝ) / (1:ℕ) / 2 ^ 60 = (X:ℝ) / 2 ^ 60 + (rndNat (N * 2 ^ 120) X : ℝ) / 2 ^ 60 := by
        push_cast
        ring
      have hb := normal_nat h2 h2'
      have := rnd53_fx h2
      rw [ee] at hb this
      rw [fx, fx, add_normal hb.1 hb.2, this, fx]
    rw [e1, e2]
    have ee : ((rndNat (X + rndNat (N * 2 ^ 120) X) 1 : ℕ) : ℝ) / (2:ℕ) / 2 ^ 60 =
        (rndNat (X + rndNat (N * 2 ^ 120) X) 1 : ℝ) / 2 ^ 60 / ((2:ℕ):ℝ) := by ring
    have hb := normal_nat h3 h3'
    have := rnd53_fx h3
    rw [ee] at hb this
    rw [fofNat_normal (by norm_num) (by norm_num), fx, div_normal hb.1 hb.2, this, h, fx]
  · cases h

/-- the recursion, at most `fuel` steps -/
def newtonRun (N : ℕ) : ℕ → ℕ → ℕ → Option ℕ
  | 0, _, _ => none
  | fuel + 1, X, Y => if X = Y then some X else (newtonStep N X).bind fun Z => newtonRun N fuel Z X

omit [Libm] in
theorem fx_injective {X Y : ℕ} (h : fx X = fx Y) : X = Y := by
  have : (X:ℝ) / 2 ^ 60 = (Y:ℝ) / 2 ^ 60 := congrArg Ieee.val h
  rw [div_left_inj' (by positivity)] at this
  exact_mod_cast this

theorem newtonRun_sound {N R : ℕ} (h1 : 1 ≤ N) (hN : N < 2 ^ 53) : ∀ {fuel X Y : ℕ}, newtonRun N fuel X Y = some R →
    SqrtAux (fofNat N) (fx X) (fx Y) (fx R)
  | 0, _, _, h => by cases h
  | fuel + 1, X, Y, h => by
    unfold newtonRun at h
    split at h
    · rename_i e
      injection h with h
      subst e h
      exact .stop _
    · rename_i e
      rw [Option.bind_eq_some_iff] at h
      obtain ⟨Z, hZ, h⟩ := h
      refine .step (fun h' => e (fx_injective h')) ?_
      rw [newtonStep_sound h1 hN hZ]
      exact newtonRun_sound h1 hN h

/-- the result for `2^k`, in units of `2^-60` -/
def sqrtNat (k : ℕ) : ℕ := if k % 2 = 0 then 2 ^ (k / 2) * 2 ^ 60 else 6369051672525772 * 2 ^ 8 * 2 ^ (k / 2)

omit [Libm] in
/-- the runs for all the powers of two that fit an `int` -/
theorem newton_runs : ∀ k < 31, newtonRun (2 ^ k) 64 (2 ^ k * 2 ^ 59) (2 ^ k * 2 ^ 60) = some (sqrtNat k) := by
  decide +kernel

omit [Libm] in
/-- the scale factors for all the powers of two that fit an `int` -/
theorem scale_runs : ∀ k < 31, 2 ^ 52 ≤ 2 ^ 160 / sqrtNat k ∧ rndNat (2 ^ 160) (sqrtNat k) =
    if k % 2 = 0 then 2 ^ (100 - k / 2) else 6369051672525773 * 2 ^ (47 - k / 2) := by
  decide +kernel

omit [Libm] in
/-- a number near the middle between two numbers half way to their neighbours -/
theorem rne_eq {y : ℝ} {m : ℕ} (h : |y - m| < 1 / 2) : rne y = m := by
  rw [abs_lt] at h
  unfold rne
  by_cases hm : (m:ℝ) ≤ y
  · have hf : ⌊y⌋ = m := by
      rw [Int.floor_eq_iff]
      push_cast
      exact ⟨hm, by linarith⟩
    have hr : Int.fract y < 1 / 2 := by
      rw [← Int.self_sub_floor, hf]
      push_cast
      linarith
    rw [if_pos hr, hf]
  · push Not at hm
    have hf : ⌊y⌋ = (m:ℤ) - 1 := by
      rw [Int.floor_eq_iff]
      push_cast
      constructor <;> linarith
    have hr : 1 / 2 < Int.fract y := by
      rw [← Int.self_sub_floor, hf]
      push_cast
      linarith
    rw [if_neg (by linarith), if_pos hr, hf]
    ring

omit [Libm] in
theorem rnd53_one_two {x : ℝ} {m : ℕ} (h1 : 1 ≤ x) (h2 : x < 2) (h : |x * 2 ^ 52 - m| < 1 / 2) : rnd53 x = m / 2 ^ 52 := by
  have hl : Int.log 2 |x| = 0 := by
    rw [abs_of_pos (by linarith), Int.log_of_one_le_right _ h1]
    have : ⌊x⌋₊ = 1 := by
      rw [Nat.floor_eq_iff (by linarith)]
      exact ⟨by exact_mod_cast h1, by norm_num; linarith⟩
    rw [this]; simp
  unfold rnd53
  rw [hl, show (2:ℝ) ^ ((0:ℤ) - 52) = 1 / 2 ^ 52 by norm_num, div_div_eq_mul_div, div_one, rne_eq h]
  push_cast
  ring

omit [Libm] in
/-- the double nearest to the square root of two -/
theorem rnd53_sqrt_two : rnd53 (√2) = 6369051672525773 / 2 ^ 52 := by
  have h := rnd53_one_two (x := √2) (m := 6369051672525773) (Real.one_le_sqrt.2 (by norm_num))
    (by rw [Real.sqrt_lt' (by norm_num)]; norm_num) (by
      have h1 : (12738103345051545:ℝ) / 2 ^ 53 < √2 := by
        rw [Real.lt_sqrt (by norm_num)]; norm_num
      have h2 : √2 < (12738103345051547:ℝ) / 2 ^ 53 := by
        rw [Real.sqrt_lt' (by norm_num)]; norm_num
      rw [abs_lt]
      norm_num at *
      constructor <;> linarith)
  rw [h]
  norm_num

omit [Libm] in
theorem sqrt_two_pow (j : ℕ) : √((2:ℝ) ^ (2 * j + 1)) = 2 ^ j * √2 := by
  rw [pow_succ, mul_comm 2 j, pow_mul, Real.sqrt_mul (by positivity), Real.sqrt_sq (by positivity)]

omit [Libm] in
theorem sqrt_four_pow (j : ℕ) : √((2:ℝ) ^ (2 * j)) = 2 ^ j := by
  rw [mul_comm 2 j, pow_mul, Real.sqrt_sq (by positivity)]

omit [Libm] in
theorem rnd53_sqrt_odd (j : ℕ) : rnd53 (√((2:ℝ) ^ (2 * j + 1))) = 2 ^ j * (6369051672525773 / 2 ^ 52) := by
  have := rnd53_scale j (√2)
  rw [zpow_natCast] at this
  rw [sqrt_two_pow, this, rnd53_sqrt_two]

omit [Libm] in
theorem rnd53_inv_odd (j : ℕ) : rnd53 (1 / √((2:ℝ) ^ (2 * j + 1))) = 1 / 2 ^ j * (6369051672525773 / 2 ^ 53) := by
  have := rnd53_scale (-(j + 1 : ℕ)) (√2)
  rw [zpow_neg, zpow_natCast, rnd53_sqrt_two] at this
  have e : 1 / √((2:ℝ) ^ (2 * j + 1)) = (2 ^ (j + 1))⁻¹ * √2 := by
    rw [sqrt_two_pow]
    have h2 : √2 * √2 = (2:ℝ) := Real.mul_self_sqrt (by norm_num)
    have h0 : (0:ℝ) < √2 := by positivity
    rw [pow_succ]
    field_simp
    linarith
  rw [e, this, pow_succ]
  field_simp

omit [Libm] in
theorem rnd53_pow (k : ℤ) : rnd53 (2 ^ k) = 2 ^ k := by
  have := rnd53_scale k 1
  rw [mul_one] at this
  rw [this, rnd53_one_two (m := 2 ^ 52) le_rfl (by norm_num) (by norm_num)]
  norm_num

/-- the square root computed for `2^k` -/
theorem isMySqrt_pow {k : ℕ} (hk : k < 31) : IsMySqrt (fofNat (2 ^ k) : Dbl64) (fx (sqrtNat k)) := by
  have h1 : 1 ≤ 2 ^ k := Nat.one_le_two_pow
  have h2 : 2 ^ k < 2 ^ 53 := Nat.pow_lt_pow_right (by norm_num) (by omega)
  have h := newtonRun_sound h1 h2 (newton_runs k hk)
  unfold IsMySqrt
  have e1 : (fofNat (2 ^ k) : Dbl64) = fx (2 ^ k * 2 ^ 60) := by
    rw [fofNat_normal h1 h2, fx]
    congr 2
    push_cast
    field_simp
    norm_num
  have e2 : fdiv (fofNat (2 ^ k)) (fofNat 2) = fx (2 ^ k * 2 ^ 59) := by
    have e : (((2 ^ k : ℕ) : ℝ) / ((2 : ℕ) : ℝ)) = 2 ^ ((k:ℤ) - 1) := by
      push_cast
      rw [zpow_sub₀ (by norm_num), zpow_natCast, zpow_one]
    have b1 : (1:ℝ) / 2 ^ 1000 ≤ ((2 ^ k : ℕ) : ℝ) / ((2 : ℕ) : ℝ) := by
      rw [e, one_div, ← zpow_natCast, ← zpow_neg]
      exact zpow_le_zpow_right₀ (by norm_num) (by push_cast; omega)
    have b2 : ((2 ^ k : ℕ) : ℝ) / ((2 : ℕ) : ℝ) ≤ 2 ^ 1000 := by
      rw [e, ← zpow_natCast]
      exact zpow_le_zpow_right₀ (by norm_num) (by push_cast; omega)
    rw [fofNat_normal h1 h2, fofNat_normal (by norm_num) (by norm_num), div_normal b1 b2, fx]
    congr 2
    rw [e, rnd53_pow, ← e]
    push_cast
    rw [show (2:ℝ) ^ 60 = 2 ^ 59 * 2 by norm_num]
    field_simp
    norm_num
  rw [e2]
  nth_rw 2 [e1]
  exact h

omit [Libm] in
theorem sqrtNat_even (j : ℕ) : ((sqrtNat (2 * j) : ℕ) : ℝ) / 2 ^ 60 = 2 ^ j := by
  unfold sqrtNat
  rw [if_pos (by omega), show 2 * j / 2 = j by omega]
  push_cast
  field_simp
  norm_num

omit [Libm] in
theorem sqrtNat_odd (j : ℕ) : ((sqrtNat (2 * j + 1) : ℕ) : ℝ) / 2 ^ 60 = 2 ^ j * (6369051672525772 / 2 ^ 52) := by
  unfold sqrtNat
  rw [if_neg (by omega), show (2 * j + 1) / 2 = j by omega]
  push_cast
  ring

end OTFFT
