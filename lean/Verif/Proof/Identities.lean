/-
Shift, modulation, reversal and conjugation for the discrete Fourier transform; Parseval for the cosine transform.
-/
import Verif.Proof.BlueObj
import Verif.Proof.DCTDFT

namespace OTFFT

open Finset

theorem om_pow_mod (inv : Bool) {n : ℕ} (hn : 0 < n) (a : ℕ) : om inv n ^ (a % n) = om inv n ^ a := by
  conv_rhs => rw [← Nat.div_add_mod a n, pow_add, pow_mul, om_pow_self inv hn, one_pow, one_mul]

theorem om_pow_congr (inv : Bool) {n a b : ℕ} (hn : 0 < n) (h : a % n = b % n) : om inv n ^ a = om inv n ^ b := by
  rw [← om_pow_mod inv hn a, h, om_pow_mod inv hn]

/-- sums over a period do not depend on where it starts -/
theorem sum_rot {M : Type} [AddCommMonoid M] {n : ℕ} (s : ℕ) (g : ℕ → M) : ∑ j ∈ range n, g ((j + s) % n) = ∑ j ∈ range n, g j := by
  rcases Nat.eq_zero_or_pos n with rfl | hn
  · simp
  refine Finset.sum_nbij' (fun j => (j + s) % n) (fun i => (i + (n - s % n)) % n) ?_ ?_ ?_ ?_ ?_
  · intro j _; simpa using Nat.mod_lt _ hn
  · intro j _; simpa using Nat.mod_lt _ hn
  · intro j hj
    have hj := mem_range.1 hj
    have h1 := Nat.mod_lt s hn
    have h2 := Nat.div_add_mod s n
    show ((j + s) % n + (n - s % n)) % n = j
    rw [Nat.add_mod, Nat.mod_mod, ← Nat.add_mod]
    have : j + s + (n - s % n) = j + n * (s / n + 1) := by rw [mul_add, mul_one]; omega
    rw [this, Nat.add_mul_mod_self_left, Nat.mod_eq_of_lt hj]
  · intro j hj
    have hj := mem_range.1 hj
    have h1 := Nat.mod_lt s hn
    have h2 := Nat.div_add_mod s n
    show ((j + (n - s % n)) % n + s) % n = j
    rw [Nat.add_mod, Nat.mod_mod, ← Nat.add_mod]
    have : j + (n - s % n) + s = j + n * (s / n + 1) := by rw [mul_add, mul_one]; omega
    rw [this, Nat.add_mul_mod_self_left, Nat.mod_eq_of_lt hj]
  · intro j _; rfl

theorem neg_neg_mod {n j : ℕ} (hj : j < n) : (n - (n - j) % n) % n = j := by
  rcases Nat.eq_zero_or_pos j with rfl | h
  · simp
  · rw [Nat.mod_eq_of_lt (by omega : n - j < n), show n - (n - j) = j by omega, Nat.mod_eq_of_lt hj]

theorem sum_rev {M : Type} [AddCommMonoid M] {n : ℕ} (g : ℕ → M) : ∑ j ∈ range n, g ((n - j) % n) = ∑ j ∈ range n, g j := by
  rcases Nat.eq_zero_or_pos n with rfl | hn
  · simp
  refine Finset.sum_nbij' (fun j => (n - j) % n) (fun j => (n - j) % n) ?_ ?_ ?_ ?_ ?_
  · intro j _; simpa using Nat.mod_lt _ hn
  · intro j _; simpa using Nat.mod_lt _ hn
  · intro j hj; exact neg_neg_mod (mem_range.1 hj)
  · intro j hj; exact neg_neg_mod (mem_range.1 hj)
  · intro j _; rfl

theorem om_neg_mod (inv : Bool) {n k : ℕ} (hn : 0 < n) (hk : k < n) (j : ℕ) : om inv n ^ (j * ((n - k) % n)) * om inv n ^ (j * k) = 1 := by
  have e : om inv n ^ (j * ((n - k) % n)) = om inv n ^ (j * (n - k)) := by
    refine om_pow_congr inv hn ?_
    rw [Nat.mul_mod, Nat.mod_mod, ← Nat.mul_mod]
  rw [e, ← pow_add, ← mul_add, Nat.sub_add_cancel hk.le, mul_comm, pow_mul, om_pow_self inv hn, one_pow]

/-- circular shift of the input -/
theorem xdft_shift (inv : Bool) {n : ℕ} (u : ℕ → ℂ) (s k : ℕ) :
    om inv n ^ (s * k) * xdft inv n (fun j => u ((j + s) % n)) k = xdft inv n u k := by
  rcases Nat.eq_zero_or_pos n with rfl | hn
  · simp [xdft_sum]
  rw [xdft_sum, xdft_sum, Finset.mul_sum, ← sum_rot s (fun j => u j * om inv n ^ (j * k))]
  refine sum_congr rfl fun j _ => ?_
  have e : om inv n ^ ((j + s) % n * k) = om inv n ^ (j * k) * om inv n ^ (s * k) := by
    rw [← pow_add, ← add_mul]
    refine om_pow_congr inv hn ?_
    rw [Nat.mul_mod, Nat.mod_mod, ← Nat.mul_mod]
  show _ = u ((j + s) % n) * om inv n ^ ((j + s) % n * k)
  rw [e]
  ring

/-- multiplication of the input by a root of unity -/
theorem xdft_modulate (inv : Bool) {n : ℕ} (u : ℕ → ℂ) (s k : ℕ) :
    xdft inv n (fun j => om inv n ^ (s * j) * u j) k = xdft inv n u ((k + s) % n) := by
  rcases Nat.eq_zero_or_pos n with rfl | hn
  · simp [xdft_sum]
  rw [xdft_sum, xdft_sum]
  refine sum_congr rfl fun j _ => ?_
  have e : om inv n ^ (j * ((k + s) % n)) = om inv n ^ (j * k) * om inv n ^ (s * j) := by
    rw [← pow_add, mul_comm s j, ← mul_add]
    refine om_pow_congr inv hn ?_
    rw [Nat.mul_mod, Nat.mod_mod, ← Nat.mul_mod]
  rw [e]
  ring

theorem xdft_reverse (inv : Bool) {n : ℕ} (u : ℕ → ℂ) {k : ℕ} (hk : k < n) :
    xdft inv n (fun j => u ((n - j) % n)) k = xdft inv n u ((n - k) % n) := by
  have hn : 0 < n := by omega
  rw [xdft_sum, xdft_sum, ← sum_rev (fun j => u j * om inv n ^ (j * ((n - k) % n)))]
  refine sum_congr rfl fun j hj => ?_
  have hj := mem_range.1 hj
  show _ = u ((n - j) % n) * om inv n ^ ((n - j) % n * ((n - k) % n))
  congr 1
  have h1 := om_neg_mod inv hn hk ((n - j) % n)
  have h2 := om_neg_mod inv hn hj k
  rw [mul_comm k, mul_comm k] at h2
  exact mul_right_cancel₀ (pow_ne_zero _ (om_ne_zero inv n)) ((mul_comm _ _).trans (h2.trans h1.symm))

theorem xdft_conj (inv : Bool) {n : ℕ} (u : ℕ → ℂ) {k : ℕ} (hk : k < n) :
    xdft inv n (fun j => (starRingEnd ℂ) (u j)) k = (starRingEnd ℂ) (xdft inv n u ((n - k) % n)) := by
  have hn : 0 < n := by omega
  rw [xdft_sum, xdft_sum, map_sum]
  refine sum_congr rfl fun j _ => ?_
  rw [map_mul, map_pow, om_conj, om_not, inv_pow]
  congr 1
  exact eq_inv_of_mul_eq_one_right (om_neg_mod inv hn hk j)

/-- the transforms in the two directions differ by a reversal of the output -/
theorem xdft_not (inv : Bool) {n : ℕ} (u : ℕ → ℂ) {k : ℕ} (hk : k < n) :
    xdft (!inv) n u k = xdft inv n u ((n - k) % n) := by
  have hn : 0 < n := by omega
  rw [xdft_sum, xdft_sum]
  refine sum_congr rfl fun j _ => ?_
  rw [om_not, inv_pow]
  congr 1
  exact (eq_inv_of_mul_eq_one_left (om_neg_mod inv hn hk j)).symm

/-- Parseval for the cosine transform -/
theorem dct_parseval {n : ℕ} (hn : n = 1 ∨ ∃ m, 0 < m ∧ n = 2 * m) (r : ℕ → ℝ) :
    ∑ k ∈ range n, (if k = 0 then 1 else 2) * Spec.dct n r k ^ 2 = n * ∑ j ∈ range n, r j ^ 2 := by
  have h1 : ∑ j ∈ range n, r j * Spec.dct3 n (Spec.dct n r) j = n * ∑ j ∈ range n, r j ^ 2 := by
    rw [Finset.mul_sum]
    refine sum_congr rfl fun j hj => ?_
    rw [dct3_dct hn r (mem_range.1 hj)]
    ring
  rw [← h1]
  have h2 : ∀ j, r j * Spec.dct3 n (Spec.dct n r) j = ∑ k ∈ range n, (if k = 0 then 1 else 2) * Spec.dct n r k *
      (r j * Real.cos (Real.pi * k * (2 * j + 1) / (2 * n))) := by
    intro j
    unfold Spec.dct3
    rw [Finset.mul_sum]
    exact sum_congr rfl fun k _ => by ring
  simp only [h2]
  rw [sum_comm]
  refine sum_congr rfl fun k _ => ?_
  rw [← Finset.mul_sum, pow_two, ← mul_assoc]
  rfl

theorem dct_add (n : ℕ) (a b : ℝ) (u v : ℕ → ℝ) (k : ℕ) :
    Spec.dct n (fun j => a * u j + b * v j) k = a * Spec.dct n u k + b * Spec.dct n v k := by
  unfold Spec.dct
  rw [Finset.mul_sum, Finset.mul_sum, ← sum_add_distrib]
  exact sum_congr rfl fun j _ => by ring

theorem dct3_add (n : ℕ) (a b : ℝ) (u v : ℕ → ℝ) (k : ℕ) :
    Spec.dct3 n (fun j => a * u j + b * v j) k = a * Spec.dct3 n u k + b * Spec.dct3 n v k := by
  unfold Spec.dct3
  rw [Finset.mul_sum, Finset.mul_sum, ← sum_add_distrib]
  exact sum_congr rfl fun j _ => by ring

end OTFFT
