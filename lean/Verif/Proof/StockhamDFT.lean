/-
Layer 2 for the recursive Stockham transforms: they are (scaled) DFTs.
-/
import Verif.Proof.MySqrt
import Verif.Proof.BFly

namespace OTFFT

open Finset

/-- scale factor of a mode -/
noncomputable def scC (N : ℕ) (mode : ScaleMode) : ℂ :=
  match mode with
  | .scale_1 => 1
  | .scale_unitary => ((1 / Real.sqrt N : ℝ) : ℂ)
  | .scale_length => ((1 / (N : ℝ) : ℝ) : ℂ)

theorem scalepz_C (N : ℕ) (mode : ScaleMode) (z : ℂ) : scalepz N mode z = scC N mode * z := by
  cases mode
  · simp [scalepz, scC]
  · simp only [scalepz, scC, scl_C]
    congr 2
    show ((1:ℕ):ℝ) / mysqrt ((N:ℕ):ℝ) = _
    rw [mysqrt_C (by positivity)]
    push_cast; rfl
  · simp only [scalepz, scC, scl_C]
    congr 2
    show ((1:ℕ):ℝ) / _ = _
    push_cast; rfl

theorem sdft_smul (w c : ℂ) (n s : ℕ) (v : ℕ → ℂ) (t : ℕ) :
    sdft w n s (fun i => c * v i) t = c * sdft w n s v t := by
  unfold sdft
  rw [mul_sum]
  exact sum_congr rfl fun j _ => by ring

theorem end_dft {r s N : ℕ} [NeZero r] {B : BF r} {inv : Bool} (hB : BFGood B inv)
    (mode : ScaleMode) (hN : N = r * s) (v : ℕ → ℂ) {t : ℕ} (ht : t < N) :
    difPure r 1 s (endG B N mode) v t = sdft (om inv N) r s (fun i => scC N mode * v i) t := by
  have hs : 0 < s := by rcases Nat.eq_zero_or_pos s with h | h; subst h; simp [hN] at ht; exact h
  obtain ⟨q, k, hq, rfl⟩ : ∃ (q : ℕ) (k : Fin r), q < s ∧ t = q + s * (r * 0 + k.val) := by
    refine ⟨t % s, ⟨t / s, Nat.div_lt_of_lt_mul (by rw [Nat.mul_comm, ← hN]; exact ht)⟩,
      Nat.mod_lt _ hs, ?_⟩
    simp only
    rw [Nat.mul_zero, Nat.zero_add, Nat.mod_add_div]
  rw [difPure_at _ _ hq, show r * 0 + k.val = k.val by omega, sdft_at _ _ _ _ hq, Finset.sum_range]
  unfold endG
  rw [hB]
  refine sum_congr rfl fun j _ => ?_
  rw [scalepz_C, ← om_pow_div inv (m := s) hN (by omega), ← pow_mul]
  congr 3
  · simp only [Nat.zero_add, Nat.one_mul]
  · ring

theorem endPure_dft {n s N : ℕ} (inv : Bool) (mode : ScaleMode)
    (hn : n = 2 ∨ n = 4 ∨ n = 8 ∨ n = 16) (hN : N = n * s) (v : ℕ → ℂ) {t : ℕ} (ht : t < N) :
    endPure inv mode n s v t = sdft (om inv N) n s (fun i => scC N mode * v i) t := by
  unfold endPure
  rcases hn with rfl | rfl | rfl | rfl
  · simpa [hN] using end_dft (bf2_good inv) mode hN v ht
  · simpa [hN] using end_dft (bf4_good inv) mode hN v ht
  · simpa [hN] using end_dft (bf8_good inv) mode hN v ht
  · simpa [hN] using end_dft (bf16_good inv) mode hN v ht

/-- the twiddles are powers of the root of unity -/
def TwC (r N : ℕ) (inv : Bool) (T : ℕ → Fin (r-1) → ℂ) : Prop :=
  ∀ p < N / r, ∀ k : Fin (r-1), T p k = om inv N ^ ((k.val + 1) * p)

section
variable {r : ℕ} [NeZero r] {B : BF r} {inv : Bool} {T : ℕ → Fin (r-1) → ℂ} {mode : ScaleMode} {L : ℕ}

theorem difG_dft {m s N : ℕ} (hB : BFGood B inv) (hN : N = s * (r * m)) (hpos : 0 < s)
    (hT : TwC r N inv T) : ∀ p < m, ∀ xs i, difG B T s p xs i =
      (∑ j : Fin r, xs j * om inv N ^ (s * (m * (i.val * j.val)))) * om inv N ^ (s * (i.val * p)) := by
  intro p hp xs i
  have hr : 0 < r := Nat.pos_of_ne_zero (NeZero.ne r)
  have hNpos : 0 < N := by rw [hN]; exact Nat.mul_pos hpos (Nat.mul_pos hr (by omega))
  have hNr : N / r = s * m := by
    rw [hN, show s * (r * m) = r * (s * m) by ring, Nat.mul_div_cancel_left _ hr]
  have hb : B.fn xs i = ∑ j : Fin r, xs j * om inv N ^ (s * (m * (i.val * j.val))) := by
    rw [hB]
    refine sum_congr rfl fun j _ => ?_
    rw [← om_pow_div inv (N := N) (m := s * m) (by rw [hN]; ring) hNpos, ← pow_mul]
    congr 2; ring
  unfold difG difOut
  split
  · rename_i h; rw [hb, h]; simp
  · rename_i h
    rw [mulpz_C, hb, mul_comm, hT _ (by rw [hNr]; exact Nat.mul_lt_mul_of_pos_left hp hpos)]
    congr 2
    simp only
    rw [Nat.sub_add_cancel (by omega)]; ring

theorem ditG_dft {m s N : ℕ} (hB : BFGood B inv) (hN : N = s * (r * m)) (hpos : 0 < s)
    (hT : TwC r N inv T) : ∀ p < m, ∀ xs i, ditG B T s p xs i =
      ∑ j : Fin r, xs j * om inv N ^ (s * (j.val * p)) * om inv N ^ (s * (m * (i.val * j.val))) := by
  intro p hp xs i
  have hr : 0 < r := Nat.pos_of_ne_zero (NeZero.ne r)
  have hNpos : 0 < N := by rw [hN]; exact Nat.mul_pos hpos (Nat.mul_pos hr (by omega))
  have hNr : N / r = s * m := by
    rw [hN, show s * (r * m) = r * (s * m) by ring, Nat.mul_div_cancel_left _ hr]
  unfold ditG ditOut
  rw [hB]
  refine sum_congr rfl fun j _ => ?_
  rw [← om_pow_div inv (N := N) (r := r) (m := s * m) (by rw [hN]; ring) hNpos, ← pow_mul]
  congr 1
  · split
    · rename_i h; rw [h]; simp
    · rename_i h
      rw [mulpz_C, mul_comm, hT _ (by rw [hNr]; exact Nat.mul_lt_mul_of_pos_left hp hpos)]
      congr 2
      simp only
      rw [Nat.sub_add_cancel (by omega)]; ring
  · congr 1; ring

theorem difRec_dft (hB : BFGood B inv) : ∀ (n k s N : ℕ) (v : ℕ → ℂ), Shape r L k n s N →
    (r < n → TwC r N inv T) → ∀ t < N,
    difRec r B inv T mode n s v t = sdft (om inv N) n s (fun i => scC N mode * v i) t := by
  intro n
  induction n using Nat.strong_induction_on with
  | _ n ih =>
  intro k s N v sh hT t ht
  have hr4 : 4 ≤ r := by rcases sh.hr with h | h | h <;> omega
  rw [difRec.eq_def]
  by_cases hc : n ≤ r ∨ r < 2
  · rw [dif_pos hc]
    exact endPure_dft inv mode (sh.ends (by omega)) sh.hN v ht
  · rw [dif_neg hc]
    have hlt : r < n := by omega
    obtain ⟨k', sh', hm, hm2⟩ := sh.step hlt
    have hN' : N = s * (r * (n / r)) := by rw [← hm, sh.hN, Nat.mul_comm]
    rw [ih (n / r) (Nat.div_lt_self (by omega) (by omega)) k' (r * s) N _ sh' (fun _ => hT hlt) t ht,
      sdft_smul, sdft_smul, dif_step (by rw [← hN']; exact om_pow_self inv (by omega))
        (difG_dft hB hN' sh.hpos (hT hlt)) v (by rw [← hN']; exact ht), ← hm]

theorem ditPure_congr {m s : ℕ} {G : ℕ → (Fin r → ℂ) → Fin r → ℂ} {u u' : ℕ → ℂ}
    (h : ∀ t < s * (r * m), u t = u' t) {t : ℕ} (ht : t < s * (r * m)) :
    ditPure r m s G u t = ditPure r m s G u' t := by
  have hs : 0 < s := by rcases Nat.eq_zero_or_pos s with h | h; simp [h] at ht; exact h
  have hm : 0 < m := by rcases Nat.eq_zero_or_pos m with h | h; simp [h] at ht; exact h
  unfold ditPure
  congr 1
  funext j
  apply h
  apply idx_lt (Nat.mod_lt _ hs)
  have := idx_lt j.isLt (Nat.mod_lt (t / s) hm)
  omega

theorem ditRec_dft (hB : BFGood B inv) : ∀ (n k s N : ℕ) (v : ℕ → ℂ), Shape r L k n s N →
    (r < n → TwC r N inv T) → ∀ t < N,
    ditRec r B inv T mode n s v t = sdft (om inv N) n s (fun i => scC N mode * v i) t := by
  intro n
  induction n using Nat.strong_induction_on with
  | _ n ih =>
  intro k s N v sh hT t ht
  have hr4 : 4 ≤ r := by rcases sh.hr with h | h | h <;> omega
  rw [ditRec.eq_def]
  by_cases hc : n ≤ r ∨ r < 2
  · rw [dif_pos hc]
    exact endPure_dft inv mode (sh.ends (by omega)) sh.hN v ht
  · rw [dif_neg hc]
    have hlt : r < n := by omega
    obtain ⟨k', sh', hm, hm2⟩ := sh.step hlt
    have hN' : N = s * (r * (n / r)) := by rw [← hm, sh.hN, Nat.mul_comm]
    rw [ditPure_congr (fun t ht' => ih (n / r) (Nat.div_lt_self (by omega) (by omega)) k' (r * s) N v
        sh' (fun _ => hT hlt) t (by rw [hN']; exact ht')) (by rw [← hN']; exact ht),
      dit_step (by rw [← hN']; exact om_pow_self inv (by omega))
        (ditG_dft hB hN' sh.hpos (hT hlt)) _ (by rw [← hN']; exact ht), ← hm]

end

/-- transform with stride 1 = the specification's DFT -/
noncomputable def xdft (inv : Bool) (n : ℕ) (x : ℕ → ℂ) : ℕ → ℂ :=
  if inv then Spec.idft n x else Spec.dft n x

theorem sdft_one (inv : Bool) (n : ℕ) (v : ℕ → ℂ) (t : ℕ) :
    sdft (om inv n) n 1 v t = xdft inv n v t := by
  unfold sdft xdft
  cases inv
  · simp only [Bool.false_eq_true, if_false, Spec.dft]
    refine sum_congr rfl fun j _ => ?_
    rw [Nat.mod_one, Nat.div_one, om, ← Complex.exp_nat_mul]
    congr 2
    · omega
    · push_cast; simp; ring
  · simp only [if_true, Spec.idft]
    refine sum_congr rfl fun j _ => ?_
    rw [Nat.mod_one, Nat.div_one, om, ← Complex.exp_nat_mul]
    congr 2
    · omega
    · push_cast; simp; ring

end OTFFT
