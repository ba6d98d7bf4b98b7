/-
What `Bluestein` computes over the complex numbers.
-/
import Verif.Proof.BlueObj
import Verif.Proof.DCTDFT

namespace OTFFT
open Finset

theorem blueTab_C {N t : ℕ} (hN : 1 ≤ N) (ht : t < 2 * N + 1) : blueTab ℂ N t = om false (2 * N) ^ t := by
  have h0 : (N : ℝ) ≠ 0 := by exact_mod_cast (by omega : N ≠ 0)
  have ang : ∀ p : ℕ, (fmul (fofNat p) (fdiv fpi (fofNat N)) : ℝ) = p * (2 * Real.pi / ((2 * N : ℕ) : ℝ)) := by
    intro p
    simp only [fmul, fofNat, fdiv, fpi]
    push_cast
    field_simp
  unfold blueTab
  split
  · rename_i h
    rw [ofD_C]
    rcases h with rfl | rfl
    · simp [fofNat]
    · rw [om_pow_self false (by omega)]; simp [fofNat]
  · split
    · rename_i h; subst h
      rw [om_half false (by omega), ofD_C]; simp [fofNat, fneg]
    · split
      · rw [ang, om_pow_mk]; rfl
      · rename_i h1 h2 h3
        rw [ang]
        have e1 : om false (2 * N) ^ t = (starRingEnd ℂ) (om false (2 * N) ^ (2 * N - t)) := by
          have := om_conj_sub false (N := 2 * N) (p := 1) (k := t) (by omega) (by omega)
          rw [one_mul, one_mul] at this
          exact this.symm
        rw [e1, om_pow_mk]
        apply Complex.ext <;> simp [CArith.cmk, fcos, fsin, fneg]

theorem blueTab_I1 {N : ℕ} (hN : 1 ≤ N) (inv : Bool) (p : ℕ) : blueTab ℂ N (blueI1 N inv p) = om inv (2 * N) ^ (p * p) := by
  have hp : ∀ b, om b (2 * N) ^ (p * p) = om b (2 * N) ^ blueIdx N p := fun b =>
    pow_eq_pow_mod _ (om_pow_self b (by omega))
  rw [blueTab_C hN (blueI1_lt hN inv p), hp]
  have hlt := blueIdx_lt hN p
  cases inv
  · rfl
  · have := om_conj_sub false (N := 2 * N) (p := 1) (k := blueIdx N p) (by omega) (by omega)
    rw [one_mul, one_mul] at this
    show om false (2 * N) ^ (2 * N - blueIdx N p) = _
    rw [← (starRingEnd ℂ).injective.eq_iff, this, map_pow, om_conj]
    rfl

theorem blueTab_I2 {N : ℕ} (hN : 1 ≤ N) (inv : Bool) (p : ℕ) : blueTab ℂ N (blueI2 N inv p) = om (!inv) (2 * N) ^ (p * p) := by
  rw [← blueTab_I1 hN (!inv) p]
  cases inv <;> rfl

theorem blueX_C {N : ℕ} (hN : 1 ≤ N) (inv : Bool) (p : ℕ) : blueX ℂ N inv (blueTab ℂ N) p = om (!inv) (2 * N) ^ (p * p) := by
  unfold blueX
  split
  · rename_i h; subst h; rw [ofD_C]; simp [fofNat]
  · exact blueTab_I2 hN inv p

theorem bsc_C (mode : ScaleMode) (N : ℕ) (z : ℂ) : bsc mode N z = scC N mode * z := by
  cases mode <;> simp [bsc, scC, scl_C, fdiv, fofNat, fsqrt]

theorem blueA_C {N : ℕ} (hN : 1 ≤ N) (inv : Bool) (v : ℕ → ℂ) (p : ℕ) :
    blueA ℂ N inv (blueTab ℂ N) v p = if p < N then v p * om inv (2 * N) ^ (p * p) else 0 := by
  unfold blueA
  split
  · rename_i h; subst h; rw [if_pos (by omega)]; simp
  · split
    · rw [blueTab_I1 hN]; rfl
    · rw [ofD_C]; simp [fofNat]

/-- the convolution that replaces the transform -/
theorem blueConv {N L : ℕ} (hN : 1 ≤ N) (hL : 2 * N - 1 ≤ L) (inv : Bool) (v : ℕ → ℂ) {k : ℕ} (hk : k < N) :
    Spec.conv L (blueA ℂ N inv (blueTab ℂ N) v) (blueB ℂ N L inv (blueTab ℂ N)) k * om inv (2 * N) ^ (k * k) = xdft inv N v k := by
  unfold Spec.conv
  rw [xdft_sum, sum_mul]
  have hsub : range N ⊆ range L := range_subset_range.2 (by omega)
  rw [← sum_subset hsub]
  · refine sum_congr rfl fun j hj => ?_
    have hj := mem_range.1 hj
    rw [blueA_C hN, if_pos hj]
    obtain ⟨d, hd, hB⟩ : ∃ d, j * j + k * k = d * d + 2 * (j * k) ∧
        blueB ℂ N L inv (blueTab ℂ N) ((k + L - j) % L) = om (!inv) (2 * N) ^ (d * d) := by
      rcases Nat.lt_or_ge k j with h | h
      · refine ⟨j - k, ?_, ?_⟩
        · obtain ⟨d, rfl⟩ : ∃ d, j = k + d := ⟨j - k, by omega⟩
          rw [Nat.add_sub_cancel_left]; ring
        · rw [Nat.mod_eq_of_lt (by omega), blueB, if_neg (by omega), if_pos (by omega), show L - (k + L - j) = j - k by omega, blueX_C hN]
      · refine ⟨k - j, ?_, ?_⟩
        · obtain ⟨d, rfl⟩ : ∃ d, k = j + d := ⟨k - j, by omega⟩
          rw [Nat.add_sub_cancel_left]; ring
        · rw [show k + L - j = (k - j) + L by omega, Nat.add_mod_right, Nat.mod_eq_of_lt (by omega), blueB, if_pos (by omega), blueX_C hN]
    rw [hB]
    have h1 : om inv (2 * N) ^ (j * j) * om inv (2 * N) ^ (k * k) = om inv (2 * N) ^ (d * d) * om inv N ^ (j * k) := by
      rw [← pow_add, hd, pow_add, pow_mul _ 2, om_sq inv (by omega)]
    have h2 : om (!inv) (2 * N) ^ (d * d) * om inv (2 * N) ^ (d * d) = 1 := by
      rw [om_not, ← mul_pow, inv_mul_cancel₀ (om_ne_zero _ _), one_pow]
    linear_combination (v j * om (!inv) (2 * N) ^ (d * d)) * h1 + (v j * om inv N ^ (j * k)) * h2
  · intro j _ hj
    rw [mem_range] at hj
    rw [blueA_C hN, if_neg hj]
    simp

theorem blueOutF_C (thr : Thr) (e : Entry) {n : ℕ} (hn : 1 ≤ n) (hn29 : n ≤ 2 ^ 29) (v : ℕ → ℂ) {t : ℕ} (ht : t < n) :
    blueOutF ℂ thr e n v t = scC n e.mode * xdft e.isInv n v t := by
  unfold blueOutF blueRes
  split
  · have : n = 1 := by omega
    subst this
    have : t = 0 := by omega
    subst this
    have hs : scC 1 e.mode = 1 := by cases e <;> simp [scC, Entry.mode]
    rw [hs, xdft_sum]
    simp
  · rename_i h2
    obtain ⟨L, hL⟩ := blueLoop_some hn29
    obtain ⟨hLv, hLn⟩ := blueLoop_valid (by omega) hL
    have hp : bluePad n = L := by rw [bluePad, hL]; rfl
    rw [hp, bsc_C, blueX_C hn]
    have hl2 := hLv.two
    have hL0 : (L : ℂ) ≠ 0 := by exact_mod_cast (by omega : L ≠ 0)
    set A := blueA ℂ n e.isInv (blueTab ℂ n) v
    set B := blueB ℂ n L e.isInv (blueTab ℂ n)
    have hprod : ∀ k < L, mulpz (fftOut ℂ thr false .scale_1 L A k) (fftOut ℂ thr false .scale_1 L B k) =
        Spec.dft L A k * Spec.dft L B k := by
      intro k hk
      rw [fftOut_C hl2 _ hk, fftOut_C hl2 _ hk, Spec.dft_eq, Spec.dft_eq]
      show (scC L .scale_1 * _) * (scC L .scale_1 * _) = _
      simp [scC]
    have hconv : fftOut ℂ thr true .scale_length L
        (fun k => mulpz (fftOut ℂ thr false .scale_1 L A k) (fftOut ℂ thr false .scale_1 L B k)) t = Spec.conv L A B t := by
      rw [fftOut_C hl2 _ (by omega), xdft_congr true hprod]
      have := conv_inv A B (k := t) (n := L) (by omega)
      rw [Spec.idft_eq] at this
      rw [this]
      simp only [scC]
      push_cast
      field_simp
    rw [hconv, ← blueConv hn hLn e.isInv v ht]
    congr 1
    show _ * (starRingEnd ℂ) _ = _
    rw [map_pow, om_conj, Bool.not_not]

end OTFFT
