/-
Layer 2 for the six-step and eight-step algorithms: they are (scaled) DFTs.
-/
import Verif.Proof.SixTables
import Verif.Proof.MixedRun

namespace OTFFT

open Finset

theorem xdft_sum (inv : Bool) (n : ℕ) (v : ℕ → ℂ) (t : ℕ) :
    xdft inv n v t = ∑ j ∈ range n, v j * om inv n ^ (j * t) := by
  rw [← sdft_one]
  unfold sdft
  refine sum_congr rfl fun j _ => ?_
  rw [Nat.mod_one, Nat.div_one, Nat.zero_add, Nat.one_mul, Nat.one_mul]

theorem nxnVal_C (n a b : ℕ) : nxnVal ℂ n a b = om false (n * n) ^ (a * b) := by
  unfold nxnVal thetaW
  rw [expj_C, om, ← Complex.exp_nat_mul]
  congr 1
  simp only [fmul, fdiv, fneg, fofNat, fpi]
  push_cast
  simp
  ring

theorem sixTw_C (n c r : ℕ) : sixTw ℂ n c r = om false (n * n) ^ (c * r) := by
  unfold sixTw
  split
  · rw [nxnVal_C]
  · rw [nxnVal_C, Nat.mul_comm r c]

theorem scale_pull (N : ℕ) (mode : ScaleMode) (w z : ℂ) :
    mulpz (scalepz N mode w) z = scC N mode * (w * z) := by
  rw [mulpz_C, scalepz_C, mul_assoc]

section
variable {n k : ℕ} {inv : Bool} {mode : ScaleMode} {v : ℕ → ℂ}

theorem sixRowsV_C (hn : n = 2 ^ k) (hk : 1 ≤ k) (v : ℕ → ℂ) {c r : ℕ} (hc : c < n) :
    sixRowsV inv n v (c + r * n) = ∑ j ∈ range n, v (r * n + j) * om inv n ^ (j * c) := by
  unfold sixRowsV
  obtain ⟨e1, e2⟩ := pos_mod (n := n) (c := c) (r := r) hc
  rw [e1, e2, difRec_dft (L := 4) (bf8_good inv) n k 1 n _
    { hr := by omega, hL := by omega, hk := hk, hn := hn, hs := by omega, hpos := by omega, hN := by omega }
    (fun _ => stockhamTw_C _ _ _ _) c hc, sdft_one, xdft_sum]
  simp [scC]

theorem sixPure_C (hn : n = 2 ^ k) (hk : 1 ≤ k) (v : ℕ → ℂ) {t : ℕ} (ht : t < n * n) :
    sixPure inv mode n v t = scC (n * n) mode * xdft inv (n * n) v t := by
  have hpos : 0 < n := by rw [hn]; positivity
  have hNpos : 0 < n * n := Nat.mul_pos hpos hpos
  obtain ⟨a, b, ha, hb, rfl⟩ : ∃ a b, a < n ∧ b < n ∧ t = a + b * n :=
    ⟨t % n, t / n, Nat.mod_lt _ hpos, Nat.div_lt_of_lt_mul ht, by rw [Nat.mul_comm]; exact (Nat.mod_add_div t n).symm⟩
  unfold sixPure
  rw [transpV]
  obtain ⟨e1, e2⟩ := pos_mod (n := n) (c := a) (r := b) ha
  rw [e1, e2, sixRowsV_C hn hk _ hb, xdft_sum, sum_split_pm, mul_sum]
  refine sum_congr rfl fun c hc => ?_
  have hc := mem_range.1 hc
  rw [sixMultV, Nat.add_comm (a * n)]
  obtain ⟨e3, e4⟩ := pos_mod (n := n) (c := c) (r := a) hc
  rw [e3, e4, sixMultG, scale_pull, sixTw_C, cj_om, sixRowsV_C hn hk _ ha, mul_assoc, mul_sum, sum_mul]
  congr 1
  refine sum_congr rfl fun j hj => ?_
  have hj := mem_range.1 hj
  rw [transpV, Nat.add_comm (c * n)]
  obtain ⟨e5, e6⟩ := pos_mod (n := n) (c := j) (r := c) hj
  rw [e5, e6, ← om_pow_div inv (N := n * n) (r := n) (m := n) rfl hNpos]
  rw [show (c + n * j) * (a + b * n) = c * a + (n * (j * a) + n * (c * b)) + (n * n) * (j * b) by ring,
    pow_add _ _ (n * n * _), pow_mul _ (n * n), om_pow_self inv hNpos, one_pow, mul_one, pow_add, pow_add,
    pow_mul, pow_mul, pow_mul _ n (c * b), show c + n * j = c + j * n by ring]
  ring

theorem eightPure_C (hn : n = 2 ^ k) (hk : 1 ≤ k) (v : ℕ → ℂ) {t : ℕ} (ht : t < 8 * (n * n)) :
    eightPure inv mode n v t = scC (8 * (n * n)) mode * xdft inv (8 * (n * n)) v t := by
  have hpos : 0 < n := by rw [hn]; positivity
  have hNpos : 0 < n * n := Nat.mul_pos hpos hpos
  unfold eightPure
  rw [eightTranspV, eightSubV]
  have hq : t / 8 < n * n := by omega
  rw [idx_mod hq, idx_div hq, sixPure_C hn hk _ hq]
  obtain ⟨q, i, hqq, hi, rfl⟩ : ∃ q i, q < n * n ∧ i < 8 ∧ t = i + 8 * q :=
    ⟨t / 8, t % 8, hq, by omega, by omega⟩
  rw [show (i + 8 * q) / 8 = q by omega, show (i + 8 * q) % 8 = i by omega, xdft_sum, xdft_sum,
    sum_split_pm 8 (n * n), mul_sum, mul_sum]
  generalize n * n = M at *
  refine sum_congr rfl fun p hp => ?_
  have hp := mem_range.1 hp
  have hM : 0 < 8 * M := by omega
  have e : i * M + p = p + M * i := by ring
  rw [e, eightPreV, idx_mod hp, idx_div hp, ofNat_of_mod ⟨i, hi⟩ (Nat.mod_eq_of_lt hi)]
  have hbf := bf8_good inv
  have hb : (bf8 inv).fn (fun j => scalepz (8 * M) mode (v (p + M * j.val))) ⟨i, hi⟩ =
      scC (8 * M) mode * ∑ j ∈ range 8, v (p + M * j) * om inv (8 * M) ^ (M * (i * j)) := by
    rw [hbf, Finset.sum_range, mul_sum]
    refine sum_congr rfl fun j _ => ?_
    rw [scalepz_C, ← om_pow_div inv (N := 8 * M) (r := 8) (m := M) rfl hM, ← pow_mul, mul_assoc]
  have hd : difOut (bf8 inv) (fun j => scalepz (8 * M) mode (v (p + M * j.val)))
      (fun k => wpow (cj inv (wr1Val ℂ (8 * M) p)) (k.val + 1)) ⟨i, hi⟩ =
      scC (8 * M) mode * (∑ j ∈ range 8, v (p + M * j) * om inv (8 * M) ^ (M * (i * j))) *
        om inv (8 * M) ^ (p * i) := by
    unfold difOut
    split
    · rename_i h0
      have h0 : i = 0 := h0
      rw [hb, h0, Nat.mul_zero, pow_zero, mul_one]
    · rename_i h0
      rw [hb, mulpz_C, wr1Val_C, cj_om]
      simp only
      rw [wpow_C _ _ (by omega), Nat.sub_add_cancel (by have : i ≠ 0 := h0; omega), ← pow_mul]
      ring
  rw [hd, ← om_pow_div inv (N := 8 * M) (r := M) (m := 8) (by ring) hM, ← pow_mul]
  have hs1 : scC M .scale_1 = 1 := rfl
  rw [hs1, one_mul, mul_assoc, mul_assoc]
  congr 1
  rw [sum_mul]
  refine sum_congr rfl fun j _ => ?_
  rw [mul_assoc, ← pow_add, ← pow_add]
  congr 1
  rw [show (p + M * j) * (i + 8 * q) = M * (i * j) + (p * i + 8 * (p * q)) + (8 * M) * (j * q) by ring,
    pow_add _ _ (8 * M * _), pow_mul _ (8 * M), om_pow_self inv hM, one_pow, mul_one]

theorem sixOut_C (hk : 1 ≤ k) (v : ℕ → ℂ) {t : ℕ} (ht : t < 2 ^ k) :
    sixOut inv mode k v t = scC (2 ^ k) mode * xdft inv (2 ^ k) v t := by
  unfold sixOut
  split
  · rw [difRec_dft (L := 4) (bf8_good inv) (2 ^ k) k 1 (2 ^ k) _
      { hr := by omega, hL := by omega, hk := hk, hn := rfl, hs := by omega, hpos := by omega, hN := by omega }
      (fun _ => stockhamTw_C _ _ _ _) t ht, sdft_one, xdft_smul]
  split
  · rename_i h5 ho
    have e := pow_split_odd h5 ho
    rw [e] at ht ⊢
    exact eightPure_C rfl (by omega) v ht
  · rename_i h5 ho
    have e := pow_split_even ho
    rw [e] at ht ⊢
    exact sixPure_C rfl (by omega) v ht

end

end OTFFT
