/-
Facts about the discrete Fourier transforms of the specification: inversion, linearity, Parseval,
convolution.
-/
import Verif.Proof.SixDFT
import Mathlib.RingTheory.RootsOfUnity.Complex

namespace OTFFT
open Finset

theorem om_not (inv : Bool) (n : ℕ) : om (!inv) n = (om inv n)⁻¹ := by
  have := om_inv_mul n
  cases inv
  · exact eq_inv_of_mul_eq_one_right this
  · exact eq_inv_of_mul_eq_one_left this

theorem om_ne_zero (inv : Bool) (n : ℕ) : om inv n ≠ 0 := by unfold om; exact Complex.exp_ne_zero _

theorem om_conj (inv : Bool) (n : ℕ) : (starRingEnd ℂ) (om inv n) = om (!inv) n := by
  unfold om
  rw [← Complex.exp_conj]
  congr 1
  have h2 : (starRingEnd ℂ) 2 = 2 := Complex.conj_ofNat 2
  cases inv <;> simp [h2]

theorem om_prim (inv : Bool) {n : ℕ} (hn : 0 < n) : IsPrimitiveRoot (om inv n) n := by
  have h := Complex.isPrimitiveRoot_exp n (by omega)
  have e : om true n = Complex.exp (2 * Real.pi * Complex.I / n) := by
    unfold om; simp
  cases inv
  · have := om_not true n
    rw [Bool.not_true, e] at this
    rw [this]; exact h.inv
  · rw [e]; exact h

/-- orthogonality of the characters -/
theorem om_orth (inv : Bool) {n a b : ℕ} (ha : a < n) (hb : b < n) :
    ∑ k ∈ range n, om inv n ^ (a * k) * om (!inv) n ^ (b * k) = if a = b then (n : ℂ) else 0 := by
  have hn : 0 < n := by omega
  have h0 := om_ne_zero inv n
  have e : ∀ k, om inv n ^ (a * k) * om (!inv) n ^ (b * k) = (om inv n ^ ((a : ℤ) - b)) ^ k := by
    intro k
    rw [om_not, zpow_sub₀ h0, div_pow, zpow_natCast, zpow_natCast, ← pow_mul, ← pow_mul, inv_pow]
    rfl
  simp only [e]
  split
  · rename_i h; subst h; simp
  · rename_i h
    have hp := om_prim inv hn
    have hne : om inv n ^ ((a : ℤ) - b) ≠ 1 := by
      intro h1
      have := (hp.zpow_eq_one_iff_dvd _).1 h1
      obtain ⟨c, hc⟩ := this
      have h2 : |(a : ℤ) - b| < n := by rw [abs_lt]; constructor <;> omega
      rcases lt_trichotomy c 0 with h | h | h
      · have : (n : ℤ) * c ≤ -n := by nlinarith
        rw [abs_lt] at h2; omega
      · subst h; simp at hc; omega
      · have : (n : ℤ) ≤ n * c := by nlinarith
        rw [abs_lt] at h2; omega
    have h1 : (om inv n ^ ((a : ℤ) - b)) ^ n = 1 := by
      rw [← zpow_natCast, ← zpow_mul, mul_comm, zpow_mul, zpow_natCast, hp.pow_eq_one, one_zpow]
    have := geom_sum_mul (om inv n ^ ((a : ℤ) - b)) n
    rw [h1, sub_self] at this
    exact (mul_eq_zero.1 this).resolve_right (sub_ne_zero.2 hne)

theorem xdft_congr (inv : Bool) {n : ℕ} {u v : ℕ → ℂ} (h : ∀ t < n, u t = v t) (t : ℕ) :
    xdft inv n u t = xdft inv n v t := by
  rw [xdft_sum, xdft_sum]
  exact sum_congr rfl fun j hj => by rw [h j (mem_range.1 hj)]

theorem xdft_inv (inv : Bool) {n : ℕ} (v : ℕ → ℂ) {t : ℕ} (ht : t < n) :
    xdft (!inv) n (xdft inv n v) t = n * v t := by
  rw [xdft_sum]
  simp only [xdft_sum inv]
  simp only [sum_mul]
  rw [sum_comm]
  have : ∀ j ∈ range n, ∑ k ∈ range n, v j * om inv n ^ (j * k) * om (!inv) n ^ (k * t) =
      if j = t then (n : ℂ) * v t else 0 := by
    intro j hj
    have := om_orth inv (mem_range.1 hj) ht
    simp only [mul_assoc, ← mul_sum]
    simp only [mul_comm _ t]
    rw [this]
    split
    · rename_i h; subst h; ring
    · simp
  rw [sum_congr rfl this, sum_ite_eq' _ t]
  simp [ht]

theorem xdft_add (inv : Bool) (n : ℕ) (a b : ℂ) (u v : ℕ → ℂ) (t : ℕ) :
    xdft inv n (fun j => a * u j + b * v j) t = a * xdft inv n u t + b * xdft inv n v t := by
  simp only [xdft_sum, mul_sum, ← sum_add_distrib]
  exact sum_congr rfl fun j _ => by ring

theorem xdft_parseval (inv : Bool) (n : ℕ) (v : ℕ → ℂ) :
    Spec.energy n (xdft inv n v) = n * Spec.energy n v := by
  have h : ((Spec.energy n (xdft inv n v) : ℝ) : ℂ) = n * (Spec.energy n v : ℝ) := by
    unfold Spec.energy
    push_cast
    simp only [Complex.normSq_eq_conj_mul_self, mul_sum]
    have : ∀ k, xdft inv n v k = ∑ j ∈ range n, v j * om inv n ^ (j * k) := xdft_sum inv n v
    simp only [this, map_sum, map_mul, map_pow, om_conj]
    simp only [sum_mul_sum]
    rw [sum_comm]
    have e : ∀ i ∈ range n, (∑ k ∈ range n, ∑ j ∈ range n,
        (starRingEnd ℂ) (v i) * om (!inv) n ^ (i * k) * (v j * om inv n ^ (j * k))) =
        n * ((starRingEnd ℂ) (v i) * v i) := by
      intro i hi
      rw [sum_comm]
      have e2 : ∀ j ∈ range n, (∑ k ∈ range n,
          (starRingEnd ℂ) (v i) * om (!inv) n ^ (i * k) * (v j * om inv n ^ (j * k))) =
          if j = i then n * ((starRingEnd ℂ) (v i) * v i) else 0 := by
        intro j hj
        have := om_orth inv (mem_range.1 hj) (mem_range.1 hi)
        have e3 : ∀ k, (starRingEnd ℂ) (v i) * om (!inv) n ^ (i * k) * (v j * om inv n ^ (j * k)) =
          ((starRingEnd ℂ) (v i) * v j) * (om inv n ^ (j * k) * om (!inv) n ^ (i * k)) := fun k => by ring
        simp only [e3, ← mul_sum]
        rw [this]
        split
        · rename_i h; subst h; ring
        · simp
      rw [sum_congr rfl e2, sum_ite_eq' _ i]
      simp [hi]
    exact sum_congr rfl e
  exact_mod_cast h

theorem Spec.dft_eq (n : ℕ) (v : ℕ → ℂ) : Spec.dft n v = xdft false n v := rfl
theorem Spec.idft_eq (n : ℕ) (v : ℕ → ℂ) : Spec.idft n v = xdft true n v := rfl

theorem conv_thm (n : ℕ) (a b : ℕ → ℂ) (k : ℕ) (hn : 0 < n) :
    Spec.dft n (Spec.conv n a b) k = Spec.dft n a k * Spec.dft n b k := by
  rw [Spec.dft_eq, Spec.dft_eq, Spec.dft_eq, xdft_sum, xdft_sum, xdft_sum, sum_mul_sum]
  simp only [Spec.conv, sum_mul]
  rw [sum_comm]
  refine sum_congr rfl fun j hj => ?_
  have hj := mem_range.1 hj
  have hz := om_pow_self false hn
  -- reindex t ↦ (t + n - j) % n
  refine sum_bij' (fun t _ => (t + n - j) % n) (fun s _ => (s + j) % n) ?_ ?_ ?_ ?_ ?_
  · intro t _; exact mem_range.2 (Nat.mod_lt _ hn)
  · intro s _; exact mem_range.2 (Nat.mod_lt _ hn)
  · intro t ht
    have ht := mem_range.1 ht
    rw [Nat.mod_add_mod, show t + n - j + j = t + n by omega, Nat.add_mod_right, Nat.mod_eq_of_lt ht]
  · intro s hs
    have hs := mem_range.1 hs
    by_cases h : s + j < n
    · rw [Nat.mod_eq_of_lt h, show s + j + n - j = s + n by omega, Nat.add_mod_right, Nat.mod_eq_of_lt hs]
    · have e : (s + j) % n = s + j - n := by rw [Nat.mod_eq_sub_mod (by omega), Nat.mod_eq_of_lt (by omega)]
      rw [e]
      rw [show s + j - n + n - j = s by omega, Nat.mod_eq_of_lt hs]
  · intro t ht
    have ht := mem_range.1 ht
    have : om false n ^ (t * k) = om false n ^ (j * k) * om false n ^ ((t + n - j) % n * k) := by
      have h1 : om false n ^ ((t + n - j) % n) = om false n ^ (t + n - j) := by
        conv_rhs => rw [← Nat.div_add_mod (t + n - j) n, pow_add, pow_mul, hz, one_pow, one_mul]
      rw [pow_mul _ ((t + n - j) % n), h1, ← pow_mul, ← pow_add, ← add_mul,
        show j + (t + n - j) = n + t by omega, add_mul, pow_add, pow_mul _ n, hz, one_pow, one_mul]
    rw [this]; ring

theorem conv_inv {n : ℕ} (a b : ℕ → ℂ) {k : ℕ} (hk : k < n) :
    Spec.idft n (fun j => Spec.dft n a j * Spec.dft n b j) k = n * Spec.conv n a b k := by
  rw [Spec.idft_eq]
  have : (fun j => Spec.dft n a j * Spec.dft n b j) = xdft false n (Spec.conv n a b) :=
    funext fun j => (conv_thm n a b j (by omega)).symm
  rw [this]
  exact xdft_inv false _ hk

end OTFFT
