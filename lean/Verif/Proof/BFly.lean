/-
Layer 2: the butterflies over ℂ are small DFTs.
-/
import Verif.Proof.DFTStage
import Mathlib.Tactic.FinCases
import Mathlib.Tactic.LinearCombination

namespace OTFFT

open Finset

set_option linter.unusedSimpArgs false
set_option linter.unnecessarySeqFocus false

section simps
theorem addpz_C (a b : ℂ) : addpz a b = a + b := rfl
theorem subpz_C (a b : ℂ) : subpz a b = a - b := rfl
theorem mulpz_C (a b : ℂ) : mulpz a b = a * b := rfl
theorem cnjpz_C (a : ℂ) : cnjpz a = (starRingEnd ℂ) a := rfl
theorem jxpz_C (a : ℂ) : jxpz a = Complex.I * a := rfl
theorem v8xpz_C (a : ℂ) : v8xpz a = Complex.exp (Complex.I * (Real.pi / 4)) * a := rfl
theorem w8xpz_C (a : ℂ) : w8xpz a = Complex.exp (-Complex.I * (Real.pi / 4)) * a := rfl
theorem h1xpz_C (a : ℂ) : h1xpz a = Complex.exp (-Complex.I * (Real.pi / 8)) * a := rfl
theorem h3xpz_C (a : ℂ) : h3xpz a = Complex.exp (-Complex.I * (3 * Real.pi / 8)) * a := rfl
theorem hfxpz_C (a : ℂ) : hfxpz a = Complex.exp (Complex.I * (Real.pi / 8)) * a := rfl
theorem hdxpz_C (a : ℂ) : hdxpz a = Complex.exp (Complex.I * (3 * Real.pi / 8)) * a := rfl
theorem scl_C (r : ℝ) (a : ℂ) : scl r a = (r : ℂ) * a := rfl
end simps

/-- the root of unity of a direction: `exp(-2πi/N)` forward, `exp(+2πi/N)` inverse -/
noncomputable def om (inv : Bool) (N : ℕ) : ℂ :=
  Complex.exp ((if inv then 1 else -1) * (2 * Real.pi * Complex.I) / N)

theorem om_pow_self (inv : Bool) {N : ℕ} (hN : 0 < N) : om inv N ^ N = 1 := by
  have hN' : (N : ℂ) ≠ 0 := by exact_mod_cast hN.ne'
  unfold om
  rw [← Complex.exp_nat_mul]
  cases inv
  · rw [show (N : ℂ) * ((if false = true then 1 else -1) * (2 * Real.pi * Complex.I) / N) =
      -(2 * Real.pi * Complex.I) by simp; field_simp, Complex.exp_neg, Complex.exp_two_pi_mul_I]
    simp
  · rw [show (N : ℂ) * ((if true = true then 1 else -1) * (2 * Real.pi * Complex.I) / N) =
      (2 * Real.pi * Complex.I) by simp; field_simp, Complex.exp_two_pi_mul_I]

theorem om_pow_div (inv : Bool) {N r m : ℕ} (hN : N = r * m) (hpos : 0 < N) : om inv N ^ m = om inv r := by
  have hr : (r : ℂ) ≠ 0 := by
    have : r ≠ 0 := by rintro rfl; omega
    exact_mod_cast this
  have hm : (m : ℂ) ≠ 0 := by
    have : m ≠ 0 := by rintro rfl; omega
    exact_mod_cast this
  unfold om
  rw [← Complex.exp_nat_mul, hN]
  congr 1
  push_cast
  field_simp

/-- the 16th root: constants of the butterflies as powers of it -/
structure Root16 (z : ℂ) (inv : Bool) : Prop where
  h8 : z ^ 8 = -1
  hI : Complex.I = if inv then z ^ 4 else - z ^ 4
  v8 : Complex.exp (Complex.I * (Real.pi / 4)) = if inv then z ^ 2 else - z ^ 6
  w8 : Complex.exp (-Complex.I * (Real.pi / 4)) = if inv then - z ^ 6 else z ^ 2
  h1 : Complex.exp (-Complex.I * (Real.pi / 8)) = if inv then - z ^ 7 else z
  h3 : Complex.exp (-Complex.I * (3 * Real.pi / 8)) = if inv then - z ^ 5 else z ^ 3
  hf : Complex.exp (Complex.I * (Real.pi / 8)) = if inv then z else - z ^ 7
  hd : Complex.exp (Complex.I * (3 * Real.pi / 8)) = if inv then z ^ 3 else - z ^ 5

theorem exp_pi_8 (n : ℕ) (c : ℂ) (hc : c = Real.pi / 8 * n) :
    Complex.exp (Complex.I * c) = Complex.exp (Complex.I * (Real.pi / 8)) ^ n := by
  rw [← Complex.exp_nat_mul, hc]; congr 1; ring

theorem root16 (inv : Bool) : Root16 (om inv 16) inv := by
  set e := Complex.exp (Complex.I * (Real.pi / 8)) with he
  set e' := Complex.exp (-Complex.I * (Real.pi / 8)) with he'
  have e8 : e ^ 8 = -1 := by
    rw [he, ← Complex.exp_nat_mul, ← Complex.exp_pi_mul_I]; congr 1; push_cast; ring
  have e'8 : e' ^ 8 = -1 := by
    rw [he', ← Complex.exp_nat_mul, show ((8:ℕ):ℂ) * (-Complex.I * (Real.pi / 8)) = -(Real.pi * Complex.I) by push_cast; ring,
      Complex.exp_neg, Complex.exp_pi_mul_I]; norm_num
  have ee : e * e' = 1 := by
    rw [he, he', ← Complex.exp_add]; simp
  have e4 : e ^ 4 = Complex.I := by
    rw [he, ← Complex.exp_nat_mul,
      show ((4:ℕ):ℂ) * (Complex.I * (Real.pi / 8)) = Real.pi / 2 * Complex.I by push_cast; ring,
      Complex.exp_pi_div_two_mul_I]
  have p2 : Complex.exp (Complex.I * (Real.pi / 4)) = e ^ 2 := by
    rw [he, ← Complex.exp_nat_mul]; congr 1; push_cast; ring
  have p3 : Complex.exp (Complex.I * (3 * Real.pi / 8)) = e ^ 3 := by
    rw [he, ← Complex.exp_nat_mul]; congr 1; push_cast; ring
  have m2 : Complex.exp (-Complex.I * (Real.pi / 4)) = e' ^ 2 := by
    rw [he', ← Complex.exp_nat_mul]; congr 1; push_cast; ring
  have m3 : Complex.exp (-Complex.I * (3 * Real.pi / 8)) = e' ^ 3 := by
    rw [he', ← Complex.exp_nat_mul]; congr 1; push_cast; ring
  have hee' : e' = - e ^ 7 := by
    have : e * (e' + e ^ 7) = 0 := by linear_combination ee + e8
    rcases mul_eq_zero.1 this with h | h
    · rw [h] at ee; simp at ee
    · linear_combination h
  have he'e : e = - e' ^ 7 := by
    have : e' * (e + e' ^ 7) = 0 := by linear_combination ee + e'8
    rcases mul_eq_zero.1 this with h | h
    · rw [h] at ee; simp at ee
    · linear_combination h
  cases inv
  · have hz : om false 16 = e' := by
      unfold om; rw [he']; congr 1; simp; ring
    rw [hz]
    constructor
    · exact e'8
    · simp only [Bool.false_eq_true, if_false]
      rw [← e4, he'e]
      linear_combination (e' ^ 20 - e' ^ 12 + e' ^ 4) * e'8
    · simp only [Bool.false_eq_true, if_false]; rw [p2, he'e]; linear_combination (e' ^ 6) * e'8
    · simpa using m2
    · simp only [Bool.false_eq_true, if_false]; rfl
    · simpa using m3
    · simpa using he'e
    · simp only [Bool.false_eq_true, if_false]; rw [p3, he'e]; linear_combination (-e' ^ 13+ e' ^ 5) * e'8
  · have hz : om true 16 = e := by
      unfold om; rw [he]; congr 1; simp; ring
    rw [hz]
    constructor
    · exact e8
    · simpa using e4.symm
    · simpa using p2
    · simp only [if_true]; rw [m2, hee']; linear_combination (e ^ 6) * e8
    · simp only [if_true]; exact hee'
    · simp only [if_true]; rw [m3, hee']; linear_combination (-e ^ 13+ e ^ 5) * e8
    · simp only [if_true]; rfl
    · simpa using p3

/-- butterfly `B` is the DFT of length `r` in direction `inv` -/
def BFGood {r : ℕ} (B : BF r) (inv : Bool) : Prop :=
  ∀ (xs : Fin r → ℂ) (i : Fin r), B.fn xs i = ∑ j : Fin r, xs j * om inv r ^ (i.val * j.val)

theorem pow16 {z : ℂ} (h : z ^ 8 = -1) (k : ℕ) : z ^ (k + 8) = - z ^ k := by
  rw [pow_add, h]; ring

theorem pow_mod16 {z : ℂ} (h : z ^ 8 = -1) (k : ℕ) : z ^ k = z ^ (k % 16) := by
  conv_lhs => rw [← Nat.mod_add_div k 16, pow_add, pow_mul, show (16:ℕ) = 8 + 8 from rfl, pow_add, h]
  simp

theorem bf2_good (inv : Bool) : BFGood bf2 inv := by
  have h : om inv 2 = -1 := by
    rw [← om_pow_div inv (N := 16) (m := 8) (by norm_num) (by norm_num), (root16 inv).h8]
  intro xs i
  fin_cases i <;> simp [bf2, Fin.sum_univ_succ, h, addpz_C, subpz_C] <;> ring

theorem bf4_good (inv : Bool) : BFGood (bf4 inv) inv := by
  have r16 := root16 inv
  have h : om inv 4 = om inv 16 ^ 4 :=
    (om_pow_div inv (N := 16) (m := 4) (by norm_num) (by norm_num)).symm
  intro xs i
  rw [h]
  generalize om inv 16 = z at *
  have h8 := r16.h8
  simp only [← pow_mul]
  rw [show (∑ j : Fin 4, xs j * z ^ (4 * (i.val * j.val))) = ∑ j : Fin 4, xs j * z ^ (4 * (i.val * j.val) % 16) from
    sum_congr rfl fun j _ => by rw [pow_mod16 h8]]
  have z8 : z ^ 8 = -1 := by
    exact h8
  have z9 : z ^ 9 = -z := by
    rw [show (9:ℕ) = 1 + 8 from rfl, pow16 h8]; simp
  have z10 : z ^ 10 = -z ^ 2 := by
    rw [show (10:ℕ) = 2 + 8 from rfl, pow16 h8]
  have z11 : z ^ 11 = -z ^ 3 := by
    rw [show (11:ℕ) = 3 + 8 from rfl, pow16 h8]
  have z12 : z ^ 12 = -z ^ 4 := by
    rw [show (12:ℕ) = 4 + 8 from rfl, pow16 h8]
  have z13 : z ^ 13 = -z ^ 5 := by
    rw [show (13:ℕ) = 5 + 8 from rfl, pow16 h8]
  have z14 : z ^ 14 = -z ^ 6 := by
    rw [show (14:ℕ) = 6 + 8 from rfl, pow16 h8]
  have z15 : z ^ 15 = -z ^ 7 := by
    rw [show (15:ℕ) = 7 + 8 from rfl, pow16 h8]
  have z16 : z ^ 16 = 1 := by
    rw [show (16:ℕ) = 8 + 8 from rfl, pow16 h8, z8]; simp
  have z17 : z ^ 17 = z := by
    rw [show (17:ℕ) = 9 + 8 from rfl, pow16 h8, z9]; simp
  have z18 : z ^ 18 = z ^ 2 := by
    rw [show (18:ℕ) = 10 + 8 from rfl, pow16 h8, z10]; simp
  have z19 : z ^ 19 = z ^ 3 := by
    rw [show (19:ℕ) = 11 + 8 from rfl, pow16 h8, z11]; simp
  have z20 : z ^ 20 = z ^ 4 := by
    rw [show (20:ℕ) = 12 + 8 from rfl, pow16 h8, z12]; simp
  have z21 : z ^ 21 = z ^ 5 := by
    rw [show (21:ℕ) = 13 + 8 from rfl, pow16 h8, z13]; simp
  have z22 : z ^ 22 = z ^ 6 := by
    rw [show (22:ℕ) = 14 + 8 from rfl, pow16 h8, z14]; simp
  have z23 : z ^ 23 = z ^ 7 := by
    rw [show (23:ℕ) = 15 + 8 from rfl, pow16 h8, z15]; simp
  have z24 : z ^ 24 = -1 := by
    rw [show (24:ℕ) = 16 + 8 from rfl, pow16 h8, z16]
  have z25 : z ^ 25 = -z := by
    rw [show (25:ℕ) = 17 + 8 from rfl, pow16 h8, z17]
  have z26 : z ^ 26 = -z ^ 2 := by
    rw [show (26:ℕ) = 18 + 8 from rfl, pow16 h8, z18]
  have z27 : z ^ 27 = -z ^ 3 := by
    rw [show (27:ℕ) = 19 + 8 from rfl, pow16 h8, z19]
  have z28 : z ^ 28 = -z ^ 4 := by
    rw [show (28:ℕ) = 20 + 8 from rfl, pow16 h8, z20]
  have z29 : z ^ 29 = -z ^ 5 := by
    rw [show (29:ℕ) = 21 + 8 from rfl, pow16 h8, z21]
  have z30 : z ^ 30 = -z ^ 6 := by
    rw [show (30:ℕ) = 22 + 8 from rfl, pow16 h8, z22]
  have hI := r16.hI
  have v8 := r16.v8
  have w8 := r16.w8
  have h1 := r16.h1
  have h3 := r16.h3
  have hf := r16.hf
  have hd := r16.hd
  cases inv <;> simp only [if_true, if_false, Bool.false_eq_true] at hI v8 w8 h1 h3 hf hd <;>
    simp only [bf4, bf4fwd, bf4inv, addpz_C, subpz_C, jxpz_C, v8xpz_C, w8xpz_C, h1xpz_C, h3xpz_C,
      hfxpz_C, hdxpz_C, v8, w8, h1, h3, hf, hd, if_true, if_false, Bool.false_eq_true] <;>
    rw [hI] <;> fin_cases i <;>
    simp [Fin.sum_univ_succ] <;> ring_nf <;> (try simp only [z8, z9, z10, z11, z12, z13, z14, z15, z16, z17, z18, z19, z20, z21, z22, z23, z24, z25, z26, z27, z28, z29, z30]) <;> (try ring)

theorem bf8_good (inv : Bool) : BFGood (bf8 inv) inv := by
  have r16 := root16 inv
  have h : om inv 8 = om inv 16 ^ 2 :=
    (om_pow_div inv (N := 16) (m := 2) (by norm_num) (by norm_num)).symm
  intro xs i
  rw [h]
  generalize om inv 16 = z at *
  have h8 := r16.h8
  simp only [← pow_mul]
  rw [show (∑ j : Fin 8, xs j * z ^ (2 * (i.val * j.val))) = ∑ j : Fin 8, xs j * z ^ (2 * (i.val * j.val) % 16) from
    sum_congr rfl fun j _ => by rw [pow_mod16 h8]]
  have z8 : z ^ 8 = -1 := by
    exact h8
  have z9 : z ^ 9 = -z := by
    rw [show (9:ℕ) = 1 + 8 from rfl, pow16 h8]; simp
  have z10 : z ^ 10 = -z ^ 2 := by
    rw [show (10:ℕ) = 2 + 8 from rfl, pow16 h8]
  have z11 : z ^ 11 = -z ^ 3 := by
    rw [show (11:ℕ) = 3 + 8 from rfl, pow16 h8]
  have z12 : z ^ 12 = -z ^ 4 := by
    rw [show (12:ℕ) = 4 + 8 from rfl, pow16 h8]
  have z13 : z ^ 13 = -z ^ 5 := by
    rw [show (13:ℕ) = 5 + 8 from rfl, pow16 h8]
  have z14 : z ^ 14 = -z ^ 6 := by
    rw [show (14:ℕ) = 6 + 8 from rfl, pow16 h8]
  have z15 : z ^ 15 = -z ^ 7 := by
    rw [show (15:ℕ) = 7 + 8 from rfl, pow16 h8]
  have z16 : z ^ 16 = 1 := by
    rw [show (16:ℕ) = 8 + 8 from rfl, pow16 h8, z8]; simp
  have z17 : z ^ 17 = z := by
    rw [show (17:ℕ) = 9 + 8 from rfl, pow16 h8, z9]; simp
  have z18 : z ^ 18 = z ^ 2 := by
    rw [show (18:ℕ) = 10 + 8 from rfl, pow16 h8, z10]; simp
  have z19 : z ^ 19 = z ^ 3 := by
    rw [show (19:ℕ) = 11 + 8 from rfl, pow16 h8, z11]; simp
  have z20 : z ^ 20 = z ^ 4 := by
    rw [show (20:ℕ) = 12 + 8 from rfl, pow16 h8, z12]; simp
  have z21 : z ^ 21 = z ^ 5 := by
    rw [show (21:ℕ) = 13 + 8 from rfl, pow16 h8, z13]; simp
  have z22 : z ^ 22 = z ^ 6 := by
    rw [show (22:ℕ) = 14 + 8 from rfl, pow16 h8, z14]; simp
  have z23 : z ^ 23 = z ^ 7 := by
    rw [show (23:ℕ) = 15 + 8 from rfl, pow16 h8, z15]; simp
  have z24 : z ^ 24 = -1 := by
    rw [show (24:ℕ) = 16 + 8 from rfl, pow16 h8, z16]
  have z25 : z ^ 25 = -z := by
    rw [show (25:ℕ) = 17 + 8 from rfl, pow16 h8, z17]
  have z26 : z ^ 26 = -z ^ 2 := by
    rw [show (26:ℕ) = 18 + 8 from rfl, pow16 h8, z18]
  have z27 : z ^ 27 = -z ^ 3 := by
    rw [show (27:ℕ) = 19 + 8 from rfl, pow16 h8, z19]
  have z28 : z ^ 28 = -z ^ 4 := by
    rw [show (28:ℕ) = 20 + 8 from rfl, pow16 h8, z20]
  have z29 : z ^ 29 = -z ^ 5 := by
    rw [show (29:ℕ) = 21 + 8 from rfl, pow16 h8, z21]
  have z30 : z ^ 30 = -z ^ 6 := by
    rw [show (30:ℕ) = 22 + 8 from rfl, pow16 h8, z22]
  have hI := r16.hI
  have v8 := r16.v8
  have w8 := r16.w8
  have h1 := r16.h1
  have h3 := r16.h3
  have hf := r16.hf
  have hd := r16.hd
  cases inv <;> simp only [if_true, if_false, Bool.false_eq_true] at hI v8 w8 h1 h3 hf hd <;>
    simp only [bf8, bf8fwd, bf8inv, addpz_C, subpz_C, jxpz_C, v8xpz_C, w8xpz_C, h1xpz_C, h3xpz_C,
      hfxpz_C, hdxpz_C, v8, w8, h1, h3, hf, hd, if_true, if_false, Bool.false_eq_true] <;>
    rw [hI] <;> fin_cases i <;>
    simp [Fin.sum_univ_succ] <;> ring_nf <;> (try simp only [z8, z9, z10, z11, z12, z13, z14, z15, z16, z17, z18, z19, z20, z21, z22, z23, z24, z25, z26, z27, z28, z29, z30]) <;> (try ring)

set_option maxHeartbeats 2000000 in
theorem bf16_good (inv : Bool) : BFGood (bf16 inv) inv := by
  have r16 := root16 inv
  have h : om inv 16 = om inv 16 ^ 1 :=
    (om_pow_div inv (N := 16) (m := 1) (by norm_num) (by norm_num)).symm
  intro xs i
  rw [h]
  generalize om inv 16 = z at *
  have h8 := r16.h8
  simp only [← pow_mul]
  rw [show (∑ j : Fin 16, xs j * z ^ (1 * (i.val * j.val))) = ∑ j : Fin 16, xs j * z ^ (1 * (i.val * j.val) % 16) from
    sum_congr rfl fun j _ => by rw [pow_mod16 h8]]
  have z8 : z ^ 8 = -1 := by
    exact h8
  have z9 : z ^ 9 = -z := by
    rw [show (9:ℕ) = 1 + 8 from rfl, pow16 h8]; simp
  have z10 : z ^ 10 = -z ^ 2 := by
    rw [show (10:ℕ) = 2 + 8 from rfl, pow16 h8]
  have z11 : z ^ 11 = -z ^ 3 := by
    rw [show (11:ℕ) = 3 + 8 from rfl, pow16 h8]
  have z12 : z ^ 12 = -z ^ 4 := by
    rw [show (12:ℕ) = 4 + 8 from rfl, pow16 h8]
  have z13 : z ^ 13 = -z ^ 5 := by
    rw [show (13:ℕ) = 5 + 8 from rfl, pow16 h8]
  have z14 : z ^ 14 = -z ^ 6 := by
    rw [show (14:ℕ) = 6 + 8 from rfl, pow16 h8]
  have z15 : z ^ 15 = -z ^ 7 := by
    rw [show (15:ℕ) = 7 + 8 from rfl, pow16 h8]
  have z16 : z ^ 16 = 1 := by
    rw [show (16:ℕ) = 8 + 8 from rfl, pow16 h8, z8]; simp
  have z17 : z ^ 17 = z := by
    rw [show (17:ℕ) = 9 + 8 from rfl, pow16 h8, z9]; simp
  have z18 : z ^ 18 = z ^ 2 := by
    rw [show (18:ℕ) = 10 + 8 from rfl, pow16 h8, z10]; simp
  have z19 : z ^ 19 = z ^ 3 := by
    rw [show (19:ℕ) = 11 + 8 from rfl, pow16 h8, z11]; simp
  have z20 : z ^ 20 = z ^ 4 := by
    rw [show (20:ℕ) = 12 + 8 from rfl, pow16 h8, z12]; simp
  have z21 : z ^ 21 = z ^ 5 := by
    rw [show (21:ℕ) = 13 + 8 from rfl, pow16 h8, z13]; simp
  have z22 : z ^ 22 = z ^ 6 := by
    rw [show (22:ℕ) = 14 + 8 from rfl, pow16 h8, z14]; simp
  have z23 : z ^ 23 = z ^ 7 := by
    rw [show (23:ℕ) = 15 + 8 from rfl, pow16 h8, z15]; simp
  have z24 : z ^ 24 = -1 := by
    rw [show (24:ℕ) = 16 + 8 from rfl, pow16 h8, z16]
  have z25 : z ^ 25 = -z := by
    rw [show (25:ℕ) = 17 + 8 from rfl, pow16 h8, z17]
  have z26 : z ^ 26 = -z ^ 2 := by
    rw [show (26:ℕ) = 18 + 8 from rfl, pow16 h8, z18]
  have z27 : z ^ 27 = -z ^ 3 := by
    rw [show (27:ℕ) = 19 + 8 from rfl, pow16 h8, z19]
  have z28 : z ^ 28 = -z ^ 4 := by
    rw [show (28:ℕ) = 20 + 8 from rfl, pow16 h8, z20]
  have z29 : z ^ 29 = -z ^ 5 := by
    rw [show (29:ℕ) = 21 + 8 from rfl, pow16 h8, z21]
  have z30 : z ^ 30 = -z ^ 6 := by
    rw [show (30:ℕ) = 22 + 8 from rfl, pow16 h8, z22]
  have hI := r16.hI
  have v8 := r16.v8
  have w8 := r16.w8
  have h1 := r16.h1
  have h3 := r16.h3
  have hf := r16.hf
  have hd := r16.hd
  cases inv <;> simp only [if_true, if_false, Bool.false_eq_true] at hI v8 w8 h1 h3 hf hd <;>
    simp only [bf16, bf16fwd, bf16inv, addpz_C, subpz_C, jxpz_C, v8xpz_C, w8xpz_C, h1xpz_C, h3xpz_C,
      hfxpz_C, hdxpz_C, v8, w8, h1, h3, hf, hd, if_true, if_false, Bool.false_eq_true] <;>
    rw [hI] <;> fin_cases i <;>
    simp [Fin.sum_univ_succ] <;> ring_nf <;> (try simp only [z8, z9, z10, z11, z12, z13, z14, z15, z16, z17, z18, z19, z20, z21, z22, z23, z24, z25, z26, z27, z28, z29, z30]) <;> (try ring)


end OTFFT
