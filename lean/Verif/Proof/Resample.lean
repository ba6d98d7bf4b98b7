/-
Transforms of length `n` and `m * n`: sums over blocks and over interleaved parts.
-/
import Verif.Proof.DFTFacts
import Verif.Proof.Identities

namespace OTFFT
open Finset

variable {n m : ℕ}

/-- a sum over `m` blocks of `n` -/
theorem sum_blocks {M : Type} [AddCommMonoid M] (n m : ℕ) (f : ℕ → M) :
    ∑ j ∈ range (m * n), f j = ∑ i ∈ range m, ∑ j ∈ range n, f (j + n * i) := by
  induction m with
  | zero => simp
  | succ m ih =>
    rw [Nat.succ_mul, sum_range_add, sum_range_succ, ih]
    congr 1
    exact sum_congr rfl fun j _ => by rw [Nat.add_comm, Nat.mul_comm]

/-- a sum over `m` interleaved parts of `n` -/
theorem sum_parts {M : Type} [AddCommMonoid M] (n m : ℕ) (f : ℕ → M) :
    ∑ j ∈ range (m * n), f j = ∑ r ∈ range m, ∑ j ∈ range n, f (m * j + r) := by
  rw [Nat.mul_comm, sum_blocks, sum_comm]
  exact sum_congr rfl fun r _ => sum_congr rfl fun j _ => by rw [Nat.add_comm]

theorem om_up (inv : Bool) (hn : 0 < n) (hm : 0 < m) : om inv (m * n) ^ m = om inv n :=
  om_pow_div inv (Nat.mul_comm m n) (Nat.mul_pos hm hn)

theorem om_up' (inv : Bool) (hn : 0 < n) (hm : 0 < m) : om inv (m * n) ^ n = om inv m :=
  om_pow_div inv rfl (Nat.mul_pos hm hn)

/-- the sum of the powers of a root of unity -/
theorem om_geom (inv : Bool) (hm : 0 < m) (k : ℕ) : ∑ i ∈ range m, om inv m ^ (i * k) = if m ∣ k then (m : ℂ) else 0 := by
  have e : ∑ i ∈ range m, om inv m ^ (i * k) = ∑ i ∈ range m, om inv m ^ (k % m * i) * om (!inv) m ^ (0 * i) :=
    sum_congr rfl fun i _ => by
      rw [Nat.zero_mul, pow_zero, mul_one]
      refine om_pow_congr inv hm ?_
      simp [Nat.mul_comm i k, Nat.mul_mod]
  rw [e, om_orth inv (Nat.mod_lt k hm) hm]
  by_cases h : m ∣ k
  · rw [if_pos h, if_pos (Nat.mod_eq_zero_of_dvd h)]
  · rw [if_neg h, if_neg fun h' => h (Nat.dvd_of_mod_eq_zero h')]

/-- the interleaved parts -/
theorem xdft_parts (inv : Bool) (hn : 0 < n) (hm : 0 < m) (v : ℕ → ℂ) (k : ℕ) :
    xdft inv (m * n) v k = ∑ r ∈ range m, om inv (m * n) ^ (r * k) * xdft inv n (fun j => v (m * j + r)) (k % n) := by
  rw [xdft_sum, sum_parts]
  refine sum_congr rfl fun r _ => ?_
  rw [xdft_sum, mul_sum]
  refine sum_congr rfl fun j _ => ?_
  have : om inv n ^ (j * (k % n)) = om inv (m * n) ^ (m * (j * k)) := by
    rw [pow_mul _ m, om_up inv hn hm]
    exact om_pow_congr inv hn (by rw [Nat.mul_mod, Nat.mod_mod, ← Nat.mul_mod])
  rw [this, show (m * j + r) * k = r * k + m * (j * k) by ring, pow_add]
  ring

/-- the blocks added up -/
theorem xdft_fold (inv : Bool) (hn : 0 < n) (hm : 0 < m) (v : ℕ → ℂ) (k : ℕ) :
    xdft inv (m * n) v (m * k) = xdft inv n (fun j => ∑ i ∈ range m, v (j + n * i)) k := by
  rw [xdft_sum, sum_blocks, xdft_sum, sum_comm]
  refine sum_congr rfl fun j _ => ?_
  rw [sum_mul]
  refine sum_congr rfl fun i _ => ?_
  congr 1
  rw [show (j + n * i) * (m * k) = m * ((j + n * i) * k) by ring, pow_mul, om_up inv hn hm]
  refine om_pow_congr inv hn ?_
  rw [Nat.mul_mod, Nat.add_mul_mod_self_left, ← Nat.mul_mod]

theorem xdft_pad (inv : Bool) (hn : 0 < n) (hm : 0 < m) (u : ℕ → ℂ) (k : ℕ) :
    xdft inv (m * n) (fun j => if j < n then u j else 0) (m * k) = xdft inv n u k := by
  rw [xdft_fold inv hn hm]
  refine xdft_congr inv (fun j hj => ?_) k
  rw [sum_eq_single 0]
  · rw [Nat.mul_zero, Nat.add_zero, if_pos hj]
  · intro i _ hi
    have := Nat.mul_le_mul_left n (Nat.pos_of_ne_zero hi)
    rw [if_neg (by omega)]
  · intro h; exact absurd (mem_range.2 hm) h

theorem xdft_tile (inv : Bool) (hn : 0 < n) (hm : 0 < m) (u : ℕ → ℂ) (k : ℕ) :
    xdft inv (m * n) (fun j => u (j % n)) k = if m ∣ k then m * xdft inv n u (k / m) else 0 := by
  have e : xdft inv (m * n) (fun j => u (j % n)) k =
      (∑ i ∈ range m, om inv m ^ (i * k)) * ∑ j ∈ range n, u j * om inv (m * n) ^ (j * k) := by
    rw [xdft_sum, sum_blocks, sum_mul]
    refine sum_congr rfl fun i _ => ?_
    rw [mul_sum]
    refine sum_congr rfl fun j hj => ?_
    beta_reduce
    rw [Nat.add_mul_mod_self_left, Nat.mod_eq_of_lt (mem_range.1 hj), ← om_up' inv hn hm, ← pow_mul,
      show (j + n * i) * k = n * (i * k) + j * k by ring, pow_add]
    ring
  rw [e, om_geom inv hm]
  split
  · rename_i h
    obtain ⟨q, rfl⟩ := h
    rw [Nat.mul_div_cancel_left _ hm, xdft_sum]
    congr 1
    refine sum_congr rfl fun j _ => ?_
    rw [show j * (m * q) = m * (j * q) by ring, pow_mul, om_up inv hn hm]
  · rw [zero_mul]

theorem xdft_stretch (inv : Bool) (hn : 0 < n) (hm : 0 < m) (u : ℕ → ℂ) (k : ℕ) :
    xdft inv (m * n) (fun j => if m ∣ j then u (j / m) else 0) k = xdft inv n u (k % n) := by
  rw [xdft_parts inv hn hm, sum_eq_single 0]
  · rw [Nat.zero_mul, pow_zero, one_mul]
    refine xdft_congr inv (fun j _ => ?_) _
    rw [Nat.add_zero, if_pos (Nat.dvd_mul_right m j), Nat.mul_div_cancel_left _ hm]
  · intro r hr h0
    have hr := mem_range.1 hr
    rw [xdft_sum, sum_eq_zero, mul_zero]
    intro j _
    rw [if_neg, zero_mul]
    intro h
    exact h0 (Nat.eq_zero_of_dvd_of_lt ((Nat.dvd_add_right (Nat.dvd_mul_right m j)).1 h) hr)
  · intro h; exact absurd (mem_range.2 hm) h

theorem xdft_decimate (inv : Bool) (hn : 0 < n) (hm : 0 < m) (v : ℕ → ℂ) (k : ℕ) :
    ∑ i ∈ range m, xdft inv (m * n) v (k + n * i) = m * xdft inv n (fun j => v (m * j)) k := by
  simp only [xdft_sum inv (m * n)]
  rw [sum_comm, sum_parts, sum_eq_single 0]
  · rw [xdft_sum, mul_sum]
    refine sum_congr rfl fun j _ => ?_
    rw [Nat.add_zero, ← mul_sum]
    have : ∀ i ∈ range m, om inv (m * n) ^ (m * j * (k + n * i)) = om inv n ^ (j * k) := by
      intro i _
      rw [show m * j * (k + n * i) = m * (j * (k + n * i)) by ring, pow_mul, om_up inv hn hm]
      refine om_pow_congr inv hn ?_
      rw [Nat.mul_mod, Nat.add_mul_mod_self_left, ← Nat.mul_mod]
    rw [sum_congr rfl this, sum_const, card_range, nsmul_eq_mul]
    ring
  · intro r hr h0
    have hr := mem_range.1 hr
    refine sum_eq_zero fun j _ => ?_
    rw [← mul_sum]
    have : ∀ i ∈ range m, om inv (m * n) ^ ((m * j + r) * (k + n * i)) =
        om inv (m * n) ^ ((m * j + r) * k) * om inv m ^ (i * (m * j + r)) := by
      intro i _
      rw [← om_up' inv hn hm, ← pow_mul, ← pow_add]
      congr 1; ring
    rw [sum_congr rfl this, ← mul_sum, om_geom inv hm, if_neg, mul_zero, mul_zero]
    intro h
    exact h0 (Nat.eq_zero_of_dvd_of_lt ((Nat.dvd_add_right (Nat.dvd_mul_right m j)).1 h) hr)
  · intro h; exact absurd (mem_range.2 hm) h

end OTFFT
