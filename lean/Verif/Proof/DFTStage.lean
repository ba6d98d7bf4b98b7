/-
Layer 2: the pure stage functions over ℂ and the DFT.
-/
import Verif.Proof.StockhamRec
import Verif.Spec.DFT
import Mathlib.Algebra.BigOperators.Intervals
import Mathlib.Algebra.BigOperators.Fin

namespace OTFFT

open Finset

/-- `s` interleaved length-`n` transforms with root `w`: entry `q + s k` is
`Σ_{j<n} v(q + s j) w^{s j k}`. -/
noncomputable def sdft (w : ℂ) (n s : ℕ) (v : ℕ → ℂ) : ℕ → ℂ := fun t =>
  ∑ j ∈ range n, v (t % s + s * j) * w ^ (s * (j * (t / s)))

theorem sdft_at (w : ℂ) (n s : ℕ) (v : ℕ → ℂ) {q : ℕ} (hq : q < s) (k : ℕ) :
    sdft w n s v (q + s * k) = ∑ j ∈ range n, v (q + s * j) * w ^ (s * (j * k)) := by
  unfold sdft
  rw [idx_mod hq, idx_div hq]

theorem sdft_congr (w : ℂ) {n s : ℕ} {v v' : ℕ → ℂ} (h : ∀ t < s * n, v t = v' t) {t : ℕ}
    (ht : t < s * n) : sdft w n s v t = sdft w n s v' t := by
  have hs : 0 < s := by rcases Nat.eq_zero_or_pos s with h | h; simp [h] at ht; exact h
  unfold sdft
  refine sum_congr rfl fun j hj => ?_
  rw [h _ (idx_lt (Nat.mod_lt _ hs) (mem_range.1 hj))]

/-- splitting a sum over `r*m` indices as `p + m j` -/
theorem sum_split_pm (r m : ℕ) (f : ℕ → ℂ) :
    ∑ J ∈ range (r * m), f J = ∑ p ∈ range m, ∑ j ∈ range r, f (p + m * j) := by
  rw [sum_comm, Nat.mul_comm]
  induction r with
  | zero => simp
  | succ r ih =>
    rw [sum_range_succ, ← ih, Nat.mul_succ, sum_range_add]
    congr 1
    refine sum_congr rfl fun p _ => by rw [Nat.add_comm]

/-- splitting a sum over `r*m` indices as `i + r k` -/
theorem sum_split_ik (r m : ℕ) (f : ℕ → ℂ) :
    ∑ J ∈ range (r * m), f J = ∑ i ∈ range r, ∑ k ∈ range m, f (i + r * k) := by
  rw [Nat.mul_comm]; exact sum_split_pm m r f

theorem dif_step {w : ℂ} {r m s : ℕ} [NeZero r] (hw : w ^ (s * (r * m)) = 1)
    {G : ℕ → (Fin r → ℂ) → Fin r → ℂ}
    (hG : ∀ p < m, ∀ xs i, G p xs i =
      (∑ j : Fin r, xs j * w ^ (s * (m * (i.val * j.val)))) * w ^ (s * (i.val * p)))
    (v : ℕ → ℂ) {t : ℕ} (ht : t < s * (r * m)) :
    sdft w m (r * s) (difPure r m s G v) t = sdft w (r * m) s v t := by
  have hr : 0 < r := Nat.pos_of_ne_zero (NeZero.ne r)
  have hs : 0 < s := by rcases Nat.eq_zero_or_pos s with h | h; simp [h] at ht; exact h
  obtain ⟨q, i, k, hq, rfl⟩ : ∃ (q : ℕ) (i : Fin r) (k : ℕ), q < s ∧ t = q + s * (i.val + r * k) := by
    refine ⟨t % s, ⟨t / s % r, Nat.mod_lt _ hr⟩, t / s / r, Nat.mod_lt _ hs, ?_⟩
    simp only
    rw [Nat.mod_add_div, Nat.mod_add_div]
  have e1 : q + s * (i.val + r * k) = (q + s * i.val) + (r * s) * k := by ring
  have hq' : q + s * i.val < r * s := by
    have := idx_lt hq i.isLt
    rwa [Nat.mul_comm r]
  rw [sdft_at w _ _ v hq, e1, sdft_at w _ _ _ hq', sum_split_pm]
  refine sum_congr rfl fun p hp => ?_
  have hp := mem_range.1 hp
  rw [show q + s * i.val + r * s * p = q + s * (r * p + i.val) by ring, difPure_at _ _ hq, hG p hp,
    sum_mul, sum_mul, Finset.sum_range]
  refine sum_congr rfl fun j _ => ?_
  rw [mul_assoc, mul_assoc, ← pow_add, ← pow_add]
  congr 1
  rw [show s * ((p + m * j.val) * (i.val + r * k)) =
    s * (m * (i.val * j.val)) + (s * (i.val * p) + r * s * (p * k)) + (s * (r * m)) * (j.val * k) by ring,
    pow_add _ _ (s * (r * m) * (j.val * k)), pow_mul w (s * (r * m)), hw, one_pow, mul_one]

theorem dit_step {w : ℂ} {r m s : ℕ} [NeZero r] (hw : w ^ (s * (r * m)) = 1)
    {G : ℕ → (Fin r → ℂ) → Fin r → ℂ}
    (hG : ∀ p < m, ∀ xs i, G p xs i =
      ∑ j : Fin r, xs j * w ^ (s * (j.val * p)) * w ^ (s * (m * (i.val * j.val))))
    (v : ℕ → ℂ) {t : ℕ} (ht : t < s * (r * m)) :
    ditPure r m s G (sdft w m (r * s) v) t = sdft w (r * m) s v t := by
  have hr : 0 < r := Nat.pos_of_ne_zero (NeZero.ne r)
  have hs : 0 < s := by rcases Nat.eq_zero_or_pos s with h | h; simp [h] at ht; exact h
  have hm : 0 < m := by rcases Nat.eq_zero_or_pos m with h | h; simp [h] at ht; exact h
  obtain ⟨q, p, k, hq, hp, rfl⟩ : ∃ (q p : ℕ) (k : Fin r), q < s ∧ p < m ∧
      t = q + s * (p + m * k.val) := by
    refine ⟨t % s, t / s % m, ⟨t / s / m, ?_⟩, Nat.mod_lt _ hs, Nat.mod_lt _ hm, ?_⟩
    · rw [Nat.div_div_eq_div_mul]
      exact Nat.div_lt_of_lt_mul (by rw [show s * m * r = s * (r * m) by ring]; exact ht)
    simp only
    rw [Nat.mod_add_div, Nat.mod_add_div]
  rw [ditPure_at _ _ hq hp, hG p hp, sdft_at w _ _ v hq, sum_split_ik, Finset.sum_range]
  refine sum_congr rfl fun i _ => ?_
  have hq' : q + s * i.val < r * s := by
    have := idx_lt hq i.isLt
    rwa [Nat.mul_comm r]
  rw [show q + s * (r * p + i.val) = (q + s * i.val) + (r * s) * p by ring, sdft_at w _ _ _ hq',
    sum_mul, sum_mul]
  refine sum_congr rfl fun j _ => ?_
  rw [mul_assoc, mul_assoc, ← pow_add, ← pow_add, show q + s * i.val + r * s * j = q + s * (i.val + r * j) by ring]
  congr 1
  rw [show s * ((i.val + r * j) * (p + m * k.val)) =
    r * s * (j * p) + (s * (i.val * p) + s * (m * (k.val * i.val))) + (s * (r * m)) * (j * k.val) by ring,
    pow_add _ _ (s * (r * m) * (j * k.val)), pow_mul w (s * (r * m)), hw, one_pow, mul_one]

end OTFFT
