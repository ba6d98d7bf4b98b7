/-
Error analysis in the 2-norm: the real and cosine transforms.
-/
import Verif.Proof.L2Mixed
import Verif.Proof.RoundReal

namespace OTFFT

open Finset

/-! ### computed vectors -/

namespace Flt
variable {F : Type} [FArith F] {c : Flt F} {α β : Type}

/-- `v'` is a computed version of the vector `v` with index set `A`: finite, and off by at most what `k` roundings of a vector of
2-norm `B` add up to. `φ` is a part of `B` set aside for underflow. -/
structure VAp (c : Flt F) (A : Finset α) (v : α → ℂ) (v' : α → Xmm F) (φ B : ℝ) (k : ℕ) : Prop where
  fin : ∀ t ∈ A, cfin c.fin (v' t)
  phi0 : 0 ≤ φ
  le : nrm A v + φ ≤ B
  err : nrm A (fun t => c.cv (v' t) - v t) ≤ B * ((1 + c.u) ^ k - 1)

namespace VAp
variable {A : Finset α} {Bs : Finset β} {v : α → ℂ} {v' : α → Xmm F} {φ B f g lam : ℝ} {k k2 : ℕ}
  {S : (α → ℂ) → β → ℂ} {S' : (α → Xmm F) → β → Xmm F}

theorem B0 (h : c.VAp A v v' φ B k) : 0 ≤ B := le_trans (add_nonneg nrm_nonneg h.phi0) h.le

theorem computed (h : c.VAp A v v' φ B k) : nrm A (fun t => c.cv (v' t)) + φ ≤ (1 + c.u) ^ k * B := by
  have t1 := nrm_add_le (A := A) (v := fun t => c.cv (v' t) - v t) (w := v)
  simp only [sub_add_cancel] at t1
  have := h.err
  have := h.le
  linarith

theorem mono {φ' B' : ℝ} {k' : ℕ} (h : c.VAp A v v' φ B k) (h0 : 0 ≤ φ') (hφ : φ' ≤ φ) (hB : B ≤ B') (hk : k ≤ k') :
    c.VAp A v v' φ' B' k' := by
  refine ⟨h.fin, h0, by linarith [h.le], le_trans h.err ?_⟩
  have p1 := c.one_le_pow k
  have p2 := c.pow_mono hk
  have := h.B0
  exact mul_le_mul hB (by linarith) (by linarith) (by linarith)

theorem congr {w : α → ℂ} {w' : α → Xmm F} (h : c.VAp A v v' φ B k) (e : ∀ t ∈ A, w t = v t) (e' : ∀ t ∈ A, w' t = v' t) :
    c.VAp A w w' φ B k := by
  refine ⟨fun t ht => by rw [e' t ht]; exact h.fin t ht, h.phi0, by rw [nrm_congr e]; exact h.le, ?_⟩
  rw [nrm_congr (w := fun t => c.cv (v' t) - v t) fun t ht => by rw [e t ht, e' t ht]]
  exact h.err

/-- a map applied to a computed vector -/
theorem op {S : (α → ℂ) → α → ℂ} {S' : (α → Xmm F) → α → Xmm F} (h : c.Op A S S' lam k2 f g) (hv : c.VAp A v v' φ B k)
    (hφ : √(#A) * f ≤ φ) (hk : k + k2 ≤ c.K) (hg : B ≤ g) : c.VAp A (S v) (S' v') (lam * φ) (lam * B) (k + k2) := by
  have hl := h.lam0
  have hc := hv.computed
  obtain ⟨a, b⟩ := h.loc v' B k hv.fin (by linarith) (by omega) hg
  refine ⟨a, mul_nonneg hl hv.phi0, ?_, ?_⟩
  · have := h.norm_le v
    have := mul_le_mul_of_nonneg_left hv.le hl
    linarith
  · have t1 := nrm_add_le (A := A) (v := fun t => c.cv (S' v' t) - S (fun s => c.cv (v' s)) t)
      (w := fun t => S (fun s => c.cv (v' s)) t - S v t)
    simp only [sub_add_sub_cancel] at t1
    have t2 := h.lip (fun s => c.cv (v' s)) v
    have p2 := c.one_le_pow k2
    calc _ ≤ lam * ((1 + c.u) ^ k2 - 1) * ((1 + c.u) ^ k * B) + lam * (B * ((1 + c.u) ^ k - 1)) := by
          refine le_trans t1 (add_le_add (le_trans b (mul_le_mul_of_nonneg_left (by linarith) ?_))
            (le_trans t2 (mul_le_mul_of_nonneg_left hv.err hl)))
          exact mul_nonneg hl (by linarith)
      _ = _ := by rw [pow_add]; ring

/-- a stage that makes no error -/
theorem exact (hv : c.VAp A v v' φ B k) (hl : 0 ≤ lam) (hfin : ∀ t ∈ Bs, cfin c.fin (S' v' t))
    (hex : ∀ t ∈ Bs, c.cv (S' v' t) = S (fun s => c.cv (v' s)) t)
    (hlip : nrm Bs (fun t => S (fun s => c.cv (v' s)) t - S v t) ≤ lam * nrm A (fun t => c.cv (v' t) - v t))
    (hnorm : nrm Bs (S v) ≤ lam * nrm A v) : c.VAp Bs (S v) (S' v') (lam * φ) (lam * B) k := by
  refine ⟨hfin, mul_nonneg hl hv.phi0, ?_, ?_⟩
  · have := mul_le_mul_of_nonneg_left hv.le hl
    linarith
  · rw [nrm_congr (w := fun t => S (fun s => c.cv (v' s)) t - S v t) fun t ht => by rw [hex t ht], mul_assoc]
    exact le_trans hlip (mul_le_mul_of_nonneg_left hv.err hl)

/-- a stage whose results are computed one by one, with `k0` roundings each -/
theorem step (hv : c.VAp A v v' φ B k) (hl : 0 ≤ lam) {M : β → ℝ} {k0 q : ℕ} (hq : 1 ≤ q)
    (hlip : nrm Bs (fun t => S (fun s => c.cv (v' s)) t - S v t) ≤ lam * nrm A (fun t => c.cv (v' t) - v t))
    (hnorm : nrm Bs (S v) ≤ lam * nrm A v) (hap : ∀ t ∈ Bs, c.Ap (S (fun s => c.cv (v' s)) t) (S' v' t) (M t) k0)
    (hM : nrm Bs (fun t => (M t : ℂ)) ≤ lam * q * (nrm A (fun t => c.cv (v' t)) + φ)) (hk : k + q * k0 ≤ c.K)
    (hG : lam * q * (2 * B) ≤ c.G) : c.VAp Bs (S v) (S' v') (lam * φ) (lam * B) (k + q * k0) := by
  have hkq : k0 ≤ q * k0 := Nat.le_mul_of_pos_left k0 hq
  have hc := hv.computed
  have hlq : 0 ≤ lam * q := by positivity
  have hB := hv.B0
  have hM' : nrm Bs (fun t => (M t : ℂ)) ≤ lam * q * ((1 + c.u) ^ k * B) := le_trans hM (mul_le_mul_of_nonneg_left hc hlq)
  have hMG : ∀ t ∈ Bs, M t ≤ c.G := by
    intro t ht
    have h1 : ‖(M t : ℂ)‖ ≤ nrm Bs fun t => (M t : ℂ) := by
      apply abs_le_of_sq_le_sq' _ nrm_nonneg |>.2
      rw [nrm_sq]
      exact single_le_sum (f := fun t => ‖(M t : ℂ)‖ ^ 2) (fun _ _ => by positivity) ht
    rw [Complex.norm_real, Real.norm_of_nonneg (hap t ht).nonneg] at h1
    have := c.pow_le_two (k := k) (by omega)
    have : lam * q * ((1 + c.u) ^ k * B) ≤ lam * q * (2 * B) :=
      mul_le_mul_of_nonneg_left (mul_le_mul_of_nonneg_right this hB) hlq
    linarith
  have key := fun t ht => (hap t ht).2 (hMG t ht) (by omega)
  refine ⟨fun t ht => (key t ht).1, mul_nonneg hl hv.phi0, ?_, ?_⟩
  · have := mul_le_mul_of_nonneg_left hv.le hl
    linarith
  · have t1 := nrm_add_le (A := Bs) (v := fun t => c.cv (S' v' t) - S (fun s => c.cv (v' s)) t)
      (w := fun t => S (fun s => c.cv (v' s)) t - S v t)
    simp only [sub_add_sub_cancel] at t1
    have p0 := c.one_le_pow k0
    have pk := c.one_le_pow k
    have t2 : nrm Bs (fun t => c.cv (S' v' t) - S (fun s => c.cv (v' s)) t) ≤
        ((1 + c.u) ^ k0 - 1) * (lam * q * ((1 + c.u) ^ k * B)) := by
      refine le_trans ?_ (mul_le_mul_of_nonneg_left hM' (by linarith))
      rw [← Real.norm_of_nonneg (show 0 ≤ (1 + c.u) ^ k0 - 1 by linarith), ← Complex.norm_real, ← nrm_mul]
      refine nrm_mono fun t ht => ?_
      rw [norm_mul, Complex.norm_real, Complex.norm_real, Real.norm_of_nonneg (show 0 ≤ (1 + c.u) ^ k0 - 1 by linarith),
        Real.norm_of_nonneg (hap t ht).nonneg, mul_comm]
      exact (key t ht).2.2
    have hb := one_add_mul_le_pow (a := (1 + c.u) ^ k0 - 1) (by linarith) q
    rw [add_sub_cancel, ← pow_mul, Nat.mul_comm k0] at hb
    calc _ ≤ ((1 + c.u) ^ k0 - 1) * (lam * q * ((1 + c.u) ^ k * B)) + lam * (B * ((1 + c.u) ^ k - 1)) :=
          le_trans t1 (add_le_add t2 (le_trans hlip (mul_le_mul_of_nonneg_left hv.err hl)))
      _ = lam * B * ((1 + c.u) ^ k * (1 + q * ((1 + c.u) ^ k0 - 1)) - 1) := by ring
      _ ≤ lam * B * ((1 + c.u) ^ k * (1 + c.u) ^ (q * k0) - 1) := by
        refine mul_le_mul_of_nonneg_left ?_ (mul_nonneg hl hB)
        have := mul_le_mul_of_nonneg_left hb (show 0 ≤ (1 + c.u) ^ k by linarith)
        linarith
      _ = _ := by rw [pow_add]

end VAp
end Flt

/-! ### norms of the exact stages -/

theorem nrm_sq_range (n : ℕ) (v : ℕ → ℂ) : nrm (range n) v ^ 2 = ∑ t ∈ range n, ‖v t‖ ^ 2 := nrm_sq

theorem nrm_le_of_sq {α β : Type} {A : Finset α} {B : Finset β} {v : α → ℂ} {w : β → ℂ} {lam : ℝ} (hl : 0 ≤ lam)
    (h : ∑ t ∈ A, ‖v t‖ ^ 2 ≤ lam ^ 2 * ∑ t ∈ B, ‖w t‖ ^ 2) : nrm A v ≤ lam * nrm B w := by
  rw [nrm_le (mul_nonneg hl nrm_nonneg), mul_pow, nrm_sq]
  exact h

/-- the transform of half length and the packed signal -/
theorem xdft_nrm (inv : Bool) (n : ℕ) (v : ℕ → ℂ) : nrm (range n) (xdft inv n v) = √n * nrm (range n) v := by
  rw [← sq_eq_sq₀ nrm_nonneg (mul_nonneg (Real.sqrt_nonneg _) nrm_nonneg), mul_pow, Real.sq_sqrt (by positivity), nrm_sq, nrm_sq]
  have hp := xdft_parseval inv n v
  unfold Spec.energy at hp
  simpa only [Complex.normSq_eq_norm_sq] using hp

theorem fftOut_nrm {thr : Thr} {inv : Bool} {mode : ScaleMode} {n : ℕ} (h2 : 2 ≤ n) (v : ℕ → ℂ) :
    nrm (range n) (fftOut ℂ thr inv mode n v) = scR n mode * √n * nrm (range n) v := by
  rw [nrm_congr (w := fun t => (scR n mode : ℂ) * xdft inv n v t) fun t ht => by
    rw [fftOut_C h2 _ (mem_range.1 ht), scC_eq], nrm_mul, xdft_nrm, Complex.norm_real,
    Real.norm_of_nonneg (ApLaws.scR_pos n mode (by omega)).le, mul_assoc]

theorem sum_pairs (m : ℕ) (f : ℕ → ℝ) : ∑ j ∈ range (2 * m), f j = ∑ p ∈ range m, (f (2 * p) + f (2 * p + 1)) := by
  rw [sum_even_odd_real, sum_add_distrib]

theorem norm_cmk (x y : ℝ) : ‖(⟨x, y⟩ : ℂ)‖ ^ 2 = ‖(x : ℂ)‖ ^ 2 + ‖(y : ℂ)‖ ^ 2 := by
  rw [Complex.sq_norm, Complex.normSq_mk, Complex.norm_real, Complex.norm_real, Real.norm_eq_abs, Real.norm_eq_abs, sq_abs, sq_abs]
  ring

theorem norm_re_sq_le (z : ℂ) : ‖((z.re : ℝ) : ℂ)‖ ^ 2 ≤ ‖z‖ ^ 2 := by
  rw [Complex.norm_real, Real.norm_eq_abs]
  exact pow_le_pow_left₀ (abs_nonneg _) (Complex.abs_re_le_norm z) 2

theorem zin_nrm (m : ℕ) (v w : ℕ → ℂ) :
    nrm (range m) (fun t => rfftZin ℂ v t - rfftZin ℂ w t) ≤ 1 * nrm (range (2 * m)) (fun t => v t - w t) := by
  refine nrm_le_of_sq zero_le_one ?_
  rw [one_pow, one_mul, sum_pairs]
  refine sum_le_sum fun p _ => ?_
  have e : rfftZin ℂ v p - rfftZin ℂ w p = ⟨(v (2 * p) - w (2 * p)).re, (v (2 * p + 1) - w (2 * p + 1)).re⟩ := by
    apply Complex.ext <;> simp [rfftZin, CArith.cmk, CArith.re]
  rw [e, norm_cmk]
  exact add_le_add (norm_re_sq_le _) (norm_re_sq_le _)

theorem zin_nrm0 (m : ℕ) (v : ℕ → ℂ) : nrm (range m) (rfftZin ℂ v) ≤ 1 * nrm (range (2 * m)) v := by
  have := zin_nrm m v fun _ => 0
  have e : ∀ t, rfftZin ℂ v t - rfftZin ℂ (fun _ => (0:ℂ)) t = rfftZin ℂ v t := by
    intro t; apply Complex.ext <;> simp [rfftZin, CArith.cmk, CArith.re]
  simpa only [e, sub_zero] using this

theorem unpack_nrm (m : ℕ) (v : ℕ → ℂ) : nrm (range (2 * m)) (unpackD ℂ v) = nrm (range m) v := by
  unfold nrm
  rw [sum_pairs]
  congr 1
  refine sum_congr rfl fun p _ => ?_
  unfold unpackD
  rw [if_pos (by omega), if_neg (by omega), show 2 * p / 2 = p by omega, show (2 * p + 1) / 2 = p by omega, ofD_C, ofD_C]
  exact (norm_cmk _ _).symm

theorem unpack_sub (v w : ℕ → ℂ) (t : ℕ) : unpackD ℂ v t - unpackD ℂ w t = unpackD ℂ (fun s => v s - w s) t := by
  unfold unpackD
  split <;> rw [ofD_C, ofD_C, ofD_C] <;> (apply Complex.ext <;> simp [CArith.re, CArith.im])

/-- the post-processing of the forward transform is additive -/
theorem post_sub (mode : ScaleMode) (m : ℕ) (Z W : ℕ → ℂ) (t : ℕ) :
    rfftPostOut ℂ mode m (rfftTab ℂ (2 * m)) Z t - rfftPostOut ℂ mode m (rfftTab ℂ (2 * m)) W t =
      rfftPostOut ℂ mode m (rfftTab ℂ (2 * m)) (fun s => Z s - W s) t := by
  have hmid : ∀ t, rfftMid mode m (rfftTab ℂ (2 * m)) Z t - rfftMid mode m (rfftTab ℂ (2 * m)) W t =
      rfftMid mode m (rfftTab ℂ (2 * m)) (fun s => Z s - W s) t := by
    intro t
    unfold rfftMid
    split
    · rw [rsc_C, rsc_C, rsc_C]
      simp only [subpz_C, mulpz_C, cnjpz_C, map_sub]
      ring
    · rw [rsc_C, rsc_C, rsc_C]
      simp only [subpz_C, mulpz_C, cnjpz_C, addpz_C, map_sub, map_add, map_mul]
      ring
  unfold rfftPostOut
  split
  · rw [ofD_C, ofD_C, ofD_C, rsc0_C, rsc0_C, rsc0_C]
    simp only [CArith.re, CArith.im, fadd, Complex.sub_re, Complex.sub_im]
    push_cast
    ring
  split
  · exact hmid t
  split
  · rw [ofD_C, ofD_C, ofD_C, rsc0_C, rsc0_C, rsc0_C]
    simp only [CArith.re, CArith.im, fsub, Complex.sub_re, Complex.sub_im]
    push_cast
    ring
  · rw [← hmid, cnjpz_C, cnjpz_C, cnjpz_C, map_sub]

theorem post_congr {mode : ScaleMode} {m : ℕ} (h1 : 1 ≤ m) {Z W : ℕ → ℂ} (h : ∀ t < m, Z t = W t) (u : ℕ → ℂ) {t : ℕ} (ht : t < 2 * m) :
    rfftPostOut ℂ mode m u Z t = rfftPostOut ℂ mode m u W t := by
  have hmid : ∀ t, 1 ≤ t → t < m → rfftMid mode m u Z t = rfftMid mode m u W t := by
    intro t h1 ht
    unfold rfftMid
    rw [h t ht, h (m - t) (by omega)]
  unfold rfftPostOut
  split
  · rw [h 0 (by omega)]
  split
  · exact hmid t (by omega) (by omega)
  split
  · rw [h 0 (by omega)]
  · rw [hmid _ (by omega) (by omega)]

/-- the post-processing multiplies the norm by `√2 s` -/
theorem post_nrm (thr : Thr) {mode : ScaleMode} {m : ℕ} (h2 : 2 ≤ m) (Z : ℕ → ℂ) :
    nrm (range (2 * m)) (rfftPostOut ℂ mode m (rfftTab ℂ (2 * m)) Z) = √2 * scR (2 * m) mode * nrm (range m) Z := by
  -- every `Z` is the transform of a packed real signal
  have hm0 : (m : ℂ) ≠ 0 := by exact_mod_cast (by omega : m ≠ 0)
  have hmR : (0:ℝ) < m := by exact_mod_cast (by omega : 0 < m)
  set z : ℕ → ℂ := fun p => (1 / (m:ℂ)) * xdft true m Z p with hz
  set r : ℕ → ℝ := fun t => if t % 2 = 0 then (z (t / 2)).re else (z (t / 2)).im with hr
  set v : ℕ → ℂ := fun t => (r t : ℂ) with hv
  have hzin : rfftZin ℂ v = z := by
    funext p
    have e0 : (v (2 * p)).re = (z p).re := by
      show r (2 * p) = _
      rw [hr]; simp
    have e1 : (v (2 * p + 1)).re = (z p).im := by
      show r (2 * p + 1) = _
      rw [hr]; simp only; rw [if_neg (by omega), show (2 * p + 1) / 2 = p by omega]
    apply Complex.ext
    · exact e0
    · exact e1
  have hZ : ∀ t < m, fftOut ℂ thr false .scale_1 m (rfftZin ℂ v) t = Z t := by
    intro t ht
    rw [hzin, fftOut_C h2 _ ht, scC, one_mul, hz, xdft_smul]
    have := xdft_inv true Z ht
    rw [Bool.not_true] at this
    rw [this]
    field_simp
  have h1 : nrm (range (2 * m)) (rfftPostOut ℂ mode m (rfftTab ℂ (2 * m)) Z) =
      nrm (range (2 * m)) fun t => (scR (2 * m) mode : ℂ) * xdft false (2 * m) v t := by
    refine nrm_congr fun t ht => ?_
    have ht := mem_range.1 ht
    rw [← post_congr (by omega) hZ _ ht]
    have := rfftFwdOut_C (thr := thr) (mode := mode) h2 v ht
    unfold rfftFwdOut at this
    rw [this, scC_eq, Spec.dft_eq]
    rfl
  have hvz : nrm (range (2 * m)) v = nrm (range m) z := by
    rw [← unpack_nrm m z]
    refine nrm_congr fun t _ => ?_
    show ((r t : ℝ) : ℂ) = _
    rw [hr]
    unfold unpackD
    simp only
    split <;> rw [ofD_C] <;> rfl
  have hz2 : nrm (range m) z = 1 / m * (√m * nrm (range m) Z) := by
    rw [hz, nrm_mul, xdft_nrm]
    congr 1
    rw [norm_div, norm_one, Complex.norm_natCast]
  rw [h1, nrm_mul, xdft_nrm, hvz, hz2, Complex.norm_real, Real.norm_of_nonneg (ApLaws.scR_pos _ _ (by omega)).le]
  push_cast
  rw [Real.sqrt_mul (by norm_num)]
  have : √(m:ℝ) * √m = m := Real.mul_self_sqrt hmR.le
  field_simp
  linear_combination (scR (2 * m) mode * nrm (range m) Z) * this

/-! ### index sums -/

theorem sum_mod_two (m : ℕ) (f : ℕ → ℝ) : ∑ t ∈ range (2 * m), f (t % m) = 2 * ∑ t ∈ range m, f t := by
  rw [two_mul m, sum_range_add, two_mul]
  congr 1
  · exact sum_congr rfl fun t ht => by rw [Nat.mod_eq_of_lt (mem_range.1 ht)]
  · exact sum_congr rfl fun t ht => by rw [Nat.add_mod_left, Nat.mod_eq_of_lt (mem_range.1 ht)]

theorem sum_mirror (m : ℕ) (f : ℕ → ℝ) : ∑ t ∈ range m, f ((m - t) % m) = ∑ t ∈ range m, f t := by
  rcases Nat.eq_zero_or_pos m with rfl | h
  · simp
  refine sum_nbij' (fun t => (m - t) % m) (fun t => (m - t) % m) ?_ ?_ ?_ ?_ ?_
  · intro t _; exact mem_range.2 (Nat.mod_lt _ h)
  · intro t _; exact mem_range.2 (Nat.mod_lt _ h)
  · intro t ht
    have := mem_range.1 ht
    rcases Nat.eq_zero_or_pos t with rfl | h0
    · simp
    · rw [Nat.mod_eq_of_lt (by omega : m - t < m), Nat.mod_eq_of_lt (by omega)]; omega
  · intro t ht
    have := mem_range.1 ht
    rcases Nat.eq_zero_or_pos t with rfl | h0
    · simp
    · rw [Nat.mod_eq_of_lt (by omega : m - t < m), Nat.mod_eq_of_lt (by omega)]; omega
  · intro t _; rfl

/-- two copies of the entries of `v` -/
theorem nrm_two {α β : Type} {A : Finset α} {B : Finset β} {y : α → ℝ} {p q : β → α} {D lam : ℝ} (hl : 0 ≤ lam)
    (hD : 2 * D ≤ lam ^ 2) (h : ∑ t ∈ B, (y (p t) ^ 2 + y (q t) ^ 2) ≤ D * ∑ t ∈ A, y t ^ 2) {s : ℝ} (hs : 0 ≤ s) :
    nrm B (fun t => ((s * (y (p t) + y (q t)) : ℝ) : ℂ)) ≤ s * lam * nrm A (fun t => (y t : ℂ)) := by
  refine nrm_le_of_sq (mul_nonneg hs hl) ?_
  have e : ∀ x : ℝ, ‖(x : ℂ)‖ ^ 2 = x ^ 2 := fun x => by rw [Complex.norm_real, Real.norm_eq_abs, sq_abs]
  simp only [e]
  have h0 : 0 ≤ ∑ t ∈ A, y t ^ 2 := sum_nonneg fun _ _ => by positivity
  calc ∑ t ∈ B, (s * (y (p t) + y (q t))) ^ 2 ≤ ∑ t ∈ B, s ^ 2 * 2 * (y (p t) ^ 2 + y (q t) ^ 2) := by
        refine sum_le_sum fun t _ => ?_
        rw [mul_pow, mul_assoc]
        refine mul_le_mul_of_nonneg_left ?_ (by positivity)
        nlinarith [sq_nonneg (y (p t) - y (q t))]
    _ = s ^ 2 * 2 * ∑ t ∈ B, (y (p t) ^ 2 + y (q t) ^ 2) := by rw [← mul_sum]
    _ ≤ s ^ 2 * 2 * (D * ∑ t ∈ A, y t ^ 2) := mul_le_mul_of_nonneg_left h (by positivity)
    _ = s ^ 2 * (2 * D) * ∑ t ∈ A, y t ^ 2 := by ring
    _ ≤ _ := by
      rw [mul_pow]
      exact mul_le_mul_of_nonneg_right (mul_le_mul_of_nonneg_left hD (by positivity)) h0


/-! ### the forward real transform -/

namespace Flt.VAp
variable {F : Type} [FArith F] [CArith F (Xmm F)] {c : Flt F}
  {v : ℕ → ℂ} {v' : ℕ → Xmm F} {φ B f : ℝ} {k m : ℕ} {thr : Thr} {mode : ScaleMode}

omit [CArith F (Xmm F)] in
theorem ap_self {z : Xmm F} (hz : cfin c.fin z) (hf : c.m0 ≤ f) : c.Ap (c.cv z) z (‖c.cv z‖ + f) 0 :=
  ⟨by linarith [norm_nonneg (c.cv z)], fun _ _ => ⟨hz, by linarith [c.m0_pos], by simp⟩⟩

omit [CArith F (Xmm F)] in
theorem entry_le {α : Type} {A : Finset α} {v : α → ℂ} {v' : α → Xmm F} (hv : c.VAp A v v' φ B k) (hk : k ≤ c.K) (hf : f ≤ φ) {t : α}
    (ht : t ∈ A) : ‖c.cv (v' t)‖ + f ≤ 2 * B := by
  have h1 : ‖c.cv (v' t)‖ ≤ nrm A fun t => c.cv (v' t) := by
    apply abs_le_of_sq_le_sq' _ nrm_nonneg |>.2
    rw [nrm_sq]
    exact single_le_sum (f := fun t => ‖c.cv (v' t)‖ ^ 2) (fun _ _ => by positivity) ht
  have := hv.computed
  have := mul_le_mul_of_nonneg_right (c.pow_le_two hk) hv.B0
  linarith

theorem pack (L : ApReal (C := Xmm F) c.Ap c.m0 c.G) (hv : c.VAp (range (2 * m)) v v' φ B k) (hφ : c.m0 ≤ φ) (hG : 6 * B ≤ c.G)
    (hk : k ≤ c.K) : c.VAp (range m) (rfftZin ℂ v) (rfftZin (Xmm F) v') φ B k := by
  have key : ∀ t ∈ range m, cfin c.fin (rfftZin (Xmm F) v' t) ∧ c.cv (rfftZin (Xmm F) v' t) = rfftZin ℂ (fun s => c.cv (v' s)) t := by
    intro t ht
    have ht := mem_range.1 ht
    have h0 := mem_range.2 (show 2 * t < 2 * m by omega)
    have h1 := mem_range.2 (show 2 * t + 1 < 2 * m by omega)
    have a0 := L.re (ap_self (hv.fin _ h0) hφ)
    have a1 := L.re (ap_self (hv.fin _ h1) hφ)
    have e0 := hv.entry_le hk le_rfl h0
    have e1 := hv.entry_le hk le_rfl h1
    have := L.cmk (L.mono a0 (M' := 2 * B) (by linarith) le_rfl) (L.mono a1 (M' := 2 * B) (by linarith) le_rfl)
    obtain ⟨f, -, e⟩ := this.2 (by linarith [hv.B0]) (Nat.zero_le _)
    refine ⟨f, ?_⟩
    rw [pow_zero, sub_self, mul_zero] at e
    exact sub_eq_zero.1 (norm_le_zero_iff.1 e)
  have := VAp.exact (S := rfftZin ℂ) (S' := rfftZin (Xmm F)) hv zero_le_one (fun t ht => (key t ht).1) (fun t ht => (key t ht).2)
    (zin_nrm m _ _) (zin_nrm0 m v)
  rwa [one_mul, one_mul] at this

theorem fft (L : ApReal (C := Xmm F) c.Ap c.m0 c.G) (hK : 1000 ≤ c.K) {inv : Bool} (h2 : 2 ≤ m) (h31 : m ≤ 2 ^ 31)
    (hv : c.VAp (range m) v v' φ B k) (hφ : √m * c.m0 ≤ φ) (hs : √m * c.m0 ≤ scR m mode * φ) (hG : √m * (2 * B) ≤ c.G)
    (hk : k + errWeight2 m ≤ c.K) :
    c.VAp (range m) (fftOut ℂ thr inv mode m v) (fftOut (Xmm F) thr inv mode m v') (√m * scR m mode * φ) (√m * scR m mode * B)
      (k + errWeight2 m) := by
  have hm : 0 < √(m:ℝ) := Real.sqrt_pos.2 (by exact_mod_cast (by omega : 0 < m))
  have op := Flt.Op.fftOut_op (c := c) (f := φ / √m) (g := B) (inv := inv) (mode := mode) L.toApLaws hK (thr := thr) h2 h31
    ⟨by rw [le_div_iff₀ hm]; linarith, hG⟩ (by rw [← mul_div_assoc, le_div_iff₀ hm]; linarith)
  refine VAp.op op hv (le_of_eq ?_) hk le_rfl
  rw [card_range]
  field_simp

theorem post (thr : Thr) (L : ApReal (C := Xmm F) c.Ap c.m0 c.G) (h2 : 2 ≤ m) (h31 : 2 * m ≤ 2 ^ 31)
    (hv : c.VAp (range m) v v' (√m * φ) B k) (hφ : c.m0 ≤ scR (2 * m) mode * φ) (hG : √2 * 4 * (2 * B) ≤ c.G)
    (hk : k + 336 ≤ c.K) :
    c.VAp (range (2 * m)) (rfftPostOut ℂ mode m (rfftTab ℂ (2 * m)) v) (rfftPostOut (Xmm F) mode m (rfftTab (Xmm F) (2 * m)) v')
      (√2 * scR (2 * m) mode * (√m * φ)) (√2 * scR (2 * m) mode * B) (k + 336) := by
  have hs := ApLaws.scR_range (2 * m) mode (by omega) h31
  have hs0 := (ApLaws.scR_pos (2 * m) mode (by omega)).le
  have hm1 : 1 ≤ √(m:ℝ) := Real.one_le_sqrt.2 (by exact_mod_cast (by omega : 1 ≤ m))
  have hφ0 : 0 ≤ φ := by
    by_contra hc
    have := mul_nonpos_of_nonneg_of_nonpos hs0 (not_le.1 hc).le
    have := c.m0_pos
    linarith
  have hφ1 : c.m0 ≤ φ := le_trans hφ (by nlinarith [hs.2])
  have hφ2 : φ ≤ √m * φ := by nlinarith
  have hB := hv.B0
  set Y : ℕ → ℝ := fun t => ‖c.cv (v' t)‖ + φ with hY
  have hY0 : ∀ t, φ ≤ Y t := fun t => by have := norm_nonneg (c.cv (v' t)); simp only [hY]; linarith
  have hap : ∀ t < m, c.Ap (c.cv (v' t)) (v' t) (Y t) 0 := fun t ht => ap_self (hv.fin t (mem_range.2 ht)) hφ1
  have hYB : ∀ t < m, Y t ≤ 2 * B := fun t ht => hv.entry_le (by omega) hφ2 (mem_range.2 ht)
  have h2' : (1.41:ℝ) ≤ √2 := sqrt2_bounds.1
  have hBG : 4 * (2 * B) ≤ c.G := by nlinarith
  set M : ℕ → ℝ := fun t => scR (2 * m) mode * 2 * (Y (t % m) + Y ((m - t % m) % m)) with hMdef
  have hu := fun t (ht : t ≤ 2 * m) => L.rfftTab_ap (N := 2 * m) (t := t) (by omega) h31 ht
  have hM : nrm (range (2 * m)) (fun t => (M t : ℂ)) ≤ √2 * scR (2 * m) mode * (4 : ℕ) *
      (nrm (range m) (fun t => c.cv (v' t)) + √m * φ) := by
    have h := nrm_two (A := range m) (B := range (2 * m)) (y := Y) (p := fun t => t % m) (q := fun t => (m - t % m) % m) (D := 4)
      (lam := 2 * √2) (by positivity) (by rw [mul_pow, Real.sq_sqrt (by norm_num)]; norm_num) (by
        rw [sum_add_distrib, sum_mod_two m fun t => Y t ^ 2, sum_mod_two m fun t => Y ((m - t) % m) ^ 2,
          sum_mirror m fun t => Y t ^ 2]
        linarith) (s := scR (2 * m) mode * 2) (by positivity)
    refine le_trans h ?_
    have h3 := nrm_shift (A := range m) (v := fun t => c.cv (v' t)) hφ0
    rw [card_range] at h3
    calc _ ≤ scR (2 * m) mode * 2 * (2 * √2) * (nrm (range m) (fun t => c.cv (v' t)) + √m * φ) :=
          mul_le_mul_of_nonneg_left h3 (by positivity)
      _ = _ := by push_cast; ring
  refine VAp.step (S := rfftPostOut ℂ mode m (rfftTab ℂ (2 * m))) (S' := rfftPostOut (Xmm F) mode m (rfftTab (Xmm F) (2 * m)))
    (M := M) (k0 := 84) (q := 4) hv (by positivity) (by norm_num) ?_ (post_nrm thr h2 v).le ?_ hM hk ?_
  · rw [nrm_congr fun t _ => post_sub mode m (fun s => c.cv (v' s)) v t, post_nrm thr h2]
  · have hmid : ∀ t, 1 ≤ t → t < m → c.Ap (rfftMid mode m (rfftTab ℂ (2 * m)) (fun s => c.cv (v' s)) t)
        (rfftMid mode m (rfftTab (Xmm F) (2 * m)) v' t) (scR (2 * m) mode * (2 * (Y t + Y (m - t)))) 84 := by
      intro t h1 ht
      have y1 := hYB t ht
      have y2 := hYB (m - t) (by omega)
      have y3 := hY0 t
      have y4 := hY0 (m - t)
      have hsm : c.m0 ≤ scR (2 * m) mode * (2 * (Y t + Y (m - t))) :=
        le_trans hφ (mul_le_mul_of_nonneg_left (by linarith) hs0)
      have d1 := L.sub (hap t ht) (L.cnj (hap (m - t) (by omega)))
      have d2 := L.sub (hap (m - t) (by omega)) (L.cnj (hap t ht))
      unfold rfftMid
      split
      · exact L.rsc_ap (k := 78) (by omega) h31 (L.mono (L.sub (hap t ht) (L.tw_mul (hu t (by omega)) d1))
          (M' := 2 * (Y t + Y (m - t))) (by linarith) (by omega)) (by linarith) hsm
      · exact L.rsc_ap (k := 78) (by omega) h31 (L.cnj (L.mono (L.add (L.cnj (hap t ht)) (L.tw_mul (hu (m - t) (by omega)) d2))
          (M' := 2 * (Y t + Y (m - t))) (by linarith) (by omega))) (by linarith) hsm
    have z0 := hap 0 (by omega)
    have y0 := hYB 0 (by omega)
    have y0' := hY0 0
    have hs0' : c.m0 ≤ scR (2 * m) mode * (2 * (Y 0 + Y 0)) :=
      le_trans hφ (mul_le_mul_of_nonneg_left (by linarith) hs0)
    intro t ht
    have ht := mem_range.1 ht
    unfold rfftPostOut
    have hz : (m - 0) % m = 0 := by simp
    split
    · rename_i h
      subst h
      have e : M 0 = scR (2 * m) mode * (2 * (Y 0 + Y 0)) := by
        simp only [hMdef, Nat.zero_mod, hz]; ring
      rw [e]
      exact L.mono (L.rsc0 (2 * m) mode (by omega) h31 (L.mono (L.dadd (L.re z0) (L.im z0)) (M' := 2 * (Y 0 + Y 0))
        (k' := 1) (by linarith) (by omega)) (by linarith) hs0') le_rfl (by omega)
    split
    · have e : M t = scR (2 * m) mode * (2 * (Y t + Y (m - t))) := by
        simp only [hMdef]
        rw [Nat.mod_eq_of_lt (by omega : t < m), Nat.mod_eq_of_lt (by omega : m - t < m)]; ring
      rw [e]
      exact hmid t (by omega) (by omega)
    split
    · rename_i h
      have e : M t = scR (2 * m) mode * (2 * (Y 0 + Y 0)) := by
        simp only [hMdef, h, Nat.mod_self, hz]; ring
      rw [e]
      exact L.mono (L.rsc0 (2 * m) mode (by omega) h31 (L.mono (L.dsub (L.re z0) (L.im z0)) (M' := 2 * (Y 0 + Y 0))
        (k' := 1) (by linarith) (by omega)) (by linarith) hs0') le_rfl (by omega)
    · have e : M t = scR (2 * m) mode * (2 * (Y (2 * m - t) + Y (m - (2 * m - t)))) := by
        simp only [hMdef]
        have e1 : t % m = t - m := by
          rw [Nat.mod_eq_sub_mod (by omega), Nat.mod_eq_of_lt (by omega)]
        rw [e1, show m - (t - m) = 2 * m - t by omega, Nat.mod_eq_of_lt (by omega : 2 * m - t < m),
          show m - (2 * m - t) = t - m by omega]
        ring
      rw [e]
      exact L.cnj (hmid _ (by omega) (by omega))
  · have : √2 * scR (2 * m) mode * ((4 : ℕ) : ℝ) * (2 * B) = scR (2 * m) mode * (√2 * 4 * (2 * B)) := by push_cast; ring
    rw [this]
    have h0 : 0 ≤ √2 * 4 * (2 * B) := by positivity
    nlinarith [hs.2]

theorem rfftFwd (L : ApReal (C := Xmm F) c.Ap c.m0 c.G) (hK : 1000 ≤ c.K) (h2 : 2 ≤ m) (h31 : 2 * m ≤ 2 ^ 31)
    (hv : c.VAp (range (2 * m)) v v' φ B k) (hφ : 2 ^ 16 * c.m0 ≤ scR (2 * m) mode * φ)
    (hG : 16 * (√(2 * m : ℕ) * B) ≤ c.G) (hk : k + errWeight2 m + 336 ≤ c.K) :
    c.VAp (range (2 * m)) (rfftFwdOut ℂ thr mode m v) (rfftFwdOut (Xmm F) thr mode m v') (√(2 * m : ℕ) * scR (2 * m) mode * φ)
      (√(2 * m : ℕ) * scR (2 * m) mode * B) (k + errWeight2 m + 336) := by
  have hs := ApLaws.scR_range (2 * m) mode (by omega) h31
  have hm0 := c.m0_pos
  have hφ0 := hv.phi0
  have hB := hv.B0
  have h1 : 2 ^ 16 * c.m0 ≤ φ := le_trans hφ (by nlinarith [hs.2])
  have e2 : √((2 * m : ℕ) : ℝ) = √2 * √m := by push_cast; exact Real.sqrt_mul (by norm_num) _
  have hm1 : 1 ≤ √(m:ℝ) := Real.one_le_sqrt.2 (by exact_mod_cast (by omega : 1 ≤ m))
  have hm16 : √(m:ℝ) ≤ 2 ^ 16 := by
    rw [Real.sqrt_le_left (by positivity)]
    have : (m:ℝ) ≤ 2 ^ 31 := by exact_mod_cast (by omega : m ≤ 2 ^ 31)
    exact le_trans this (by norm_num)
  obtain ⟨l2, u2⟩ := sqrt2_bounds
  rw [e2] at hG
  have hmB : B ≤ √m * B := by nlinarith
  have hmB0 : 0 ≤ √m * B := by positivity
  have s2 := mul_le_mul_of_nonneg_right l2 hmB0
  have hm0' : √(m:ℝ) * c.m0 ≤ φ := le_trans (mul_le_mul_of_nonneg_right hm16 hm0.le) h1
  have p1 := pack L hv (by linarith) (by linarith) (by omega)
  have p2 := fft (thr := thr) (mode := .scale_1) (inv := false) L hK h2 (by omega) p1 hm0' (by
    show √(m:ℝ) * c.m0 ≤ 1 * φ; linarith) (by linarith) (by omega)
  rw [show scR m .scale_1 = 1 from rfl, mul_one] at p2
  have p3 := post thr (mode := mode) L h2 h31 p2 (by linarith) (by linarith) (by omega)
  unfold rfftFwdOut
  refine p3.mono (mul_nonneg (mul_nonneg (Real.sqrt_nonneg _) (le_trans (by positivity) hs.1)) hφ0) (le_of_eq ?_) (le_of_eq ?_) le_rfl
  · rw [e2]; ring
  · rw [e2]; ring

end Flt.VAp

/-! ### the inverse real transform -/

theorem scI_bounds {m : ℕ} (hm : 1 ≤ m) (mode : ScaleMode) : scR (2 * m) mode ≤ scI (2 * m) mode ∧ scI (2 * m) mode ≤ 2 ∧
    scR m (rfftInvMode mode) * scI (2 * m) mode = 2 * scR (2 * m) mode := by
  have hm1 : (1:ℝ) ≤ m := by exact_mod_cast hm
  have h2m : (1:ℝ) ≤ (2 * m : ℕ) := by push_cast; linarith
  have hsq := Real.one_le_sqrt.2 h2m
  refine ⟨?_, ?_, ?_⟩
  · cases mode
    · show (1:ℝ) ≤ 2; norm_num
    · show 1 / √(2 * m : ℕ) ≤ 2 / √(2 * m : ℕ)
      exact div_le_div_of_nonneg_right (by norm_num) (by linarith)
    · show 1 / ((2 * m : ℕ) : ℝ) ≤ 1
      rw [div_le_one (by linarith)]; exact h2m
  · cases mode
    · exact le_rfl
    · show 2 / √(2 * m : ℕ) ≤ 2
      rw [div_le_iff₀ (by linarith)]; linarith
    · show (1:ℝ) ≤ 2; norm_num
  · have := ApReal.scI_eq hm mode 1
    rw [mul_one, mul_one] at this
    push_cast at this
    have hm0 : (m:ℝ) ≠ 0 := by linarith
    apply mul_left_cancel₀ hm0
    linarith

theorem pre_C {mode : ScaleMode} {m k : ℕ} (hm : 1 ≤ m) (hk : k ≤ 2 * m) (v : ℕ → ℂ) :
    rfftPreOut mode m (rfftTab ℂ (2 * m)) v k = (scI (2 * m) mode : ℂ) *
      (v k - (starRingEnd ℂ) (rfftW (2 * m) k) * (v k - (starRingEnd ℂ) (v (m - k)))) := by
  unfold rfftPreOut
  rw [rscInv_C, rfftTab_C (by omega) (by omega)]
  simp only [subpz_C, mulpz_C, cnjpz_C, map_sub, map_mul, Complex.conj_conj]
  congr 1
  cases mode <;> simp [scI]

theorem pre_sub {mode : ScaleMode} {m k : ℕ} (hm : 1 ≤ m) (hk : k ≤ 2 * m) (v w : ℕ → ℂ) :
    rfftPreOut mode m (rfftTab ℂ (2 * m)) v k - rfftPreOut mode m (rfftTab ℂ (2 * m)) w k =
      rfftPreOut mode m (rfftTab ℂ (2 * m)) (fun s => v s - w s) k := by
  rw [pre_C hm hk, pre_C hm hk, pre_C hm hk, map_sub]
  ring

theorem rfftW_sq (N k : ℕ) : ‖1 - (starRingEnd ℂ) (rfftW N k)‖ ^ 2 + ‖(starRingEnd ℂ) (rfftW N k)‖ ^ 2 = 1 := by
  have e1 : ‖1 - (starRingEnd ℂ) (rfftW N k)‖ = ‖1 - rfftW N k‖ := by
    rw [← Complex.norm_conj (1 - rfftW N k), map_sub, map_one]
  rw [e1, Complex.norm_conj]
  unfold rfftW
  set a : ℂ := Complex.I * om false N ^ k with ha
  have hn : ‖a‖ ^ 2 = 1 := by
    rw [ha, norm_mul, Complex.norm_I, one_mul, norm_pow, om_norm, one_pow, one_pow]
  rw [show 1 - (1 + a) / 2 = (1 - a) / 2 by ring, norm_div, norm_div, Complex.norm_ofNat, div_pow, div_pow]
  have h := parallelogram_law_with_norm ℝ (1 : ℂ) a
  rw [norm_one] at h
  nlinarith

theorem pre_sum (m : ℕ) (f : ℕ → ℝ) (hf : ∀ t, 0 ≤ f t := by intros; positivity) :
    ∑ t ∈ range m, (f t + f (m - t)) ≤ 2 * ∑ t ∈ range (m + 1), f t := by
  have h1 : ∑ t ∈ range m, f (m - t) + f 0 = ∑ t ∈ range (m + 1), f t := by
    rw [← sum_range_reflect f (m + 1), sum_range_succ]
    congr 1
    · congr 1
      omega
  have h2 : ∑ t ∈ range m, f t ≤ ∑ t ∈ range (m + 1), f t := by
    rw [sum_range_succ]; linarith [hf m]
  rw [sum_add_distrib]
  linarith [hf 0]

/-- the symmetric case: every entry counts once -/
theorem pre_sum_herm (m : ℕ) (f : ℕ → ℝ) (hf : ∀ k, 0 < k → k < 2 * m → f (2 * m - k) = f k) :
    ∑ t ∈ range m, (f t + f (m - t)) = ∑ t ∈ range (2 * m), f t := by
  rw [two_mul m, sum_range_add, sum_add_distrib]
  congr 1
  refine sum_congr rfl fun t ht => ?_
  have ht := mem_range.1 ht
  have := hf (m + t) (by omega) (by omega)
  rwa [show 2 * m - (m + t) = m - t by omega] at this

/-- without any assumption on the operand -/
theorem pre_nrm {mode : ScaleMode} {m : ℕ} (hm : 1 ≤ m) (v : ℕ → ℂ) :
    nrm (range m) (rfftPreOut mode m (rfftTab ℂ (2 * m)) v) ≤ √2 * scI (2 * m) mode * nrm (range (m + 1)) v := by
  obtain ⟨b1, b2, -⟩ := scI_bounds hm mode
  have hs0 : 0 ≤ scI (2 * m) mode := le_trans (ApLaws.scR_pos (2 * m) mode (by omega)).le b1
  refine nrm_le_of_sq (by positivity) ?_
  rw [mul_pow, Real.sq_sqrt (by norm_num)]
  have h1 : ∀ k ∈ range m, ‖rfftPreOut mode m (rfftTab ℂ (2 * m)) v k‖ ^ 2 ≤
      scI (2 * m) mode ^ 2 * (‖v k‖ ^ 2 + ‖v (m - k)‖ ^ 2) := by
    intro k hk
    have hk := mem_range.1 hk
    rw [pre_C hm (by omega), norm_mul, Complex.norm_real, Real.norm_of_nonneg hs0, mul_pow]
    refine mul_le_mul_of_nonneg_left ?_ (by positivity)
    have hw := rfftW_sq (2 * m) k
    set u := (starRingEnd ℂ) (rfftW (2 * m) k)
    have e : v k - u * (v k - (starRingEnd ℂ) (v (m - k))) = (1 - u) * v k + u * (starRingEnd ℂ) (v (m - k)) := by ring
    rw [e]
    have t := norm_add_le ((1 - u) * v k) (u * (starRingEnd ℂ) (v (m - k)))
    rw [norm_mul, norm_mul, Complex.norm_conj (v (m - k))] at t
    have := pow_le_pow_left₀ (norm_nonneg _) t 2
    have := sq_nonneg (‖1 - u‖ * ‖v (m - k)‖ - ‖u‖ * ‖v k‖)
    have : (‖1 - u‖ * ‖v k‖ + ‖u‖ * ‖v (m - k)‖) ^ 2 + (‖1 - u‖ * ‖v (m - k)‖ - ‖u‖ * ‖v k‖) ^ 2 =
      (‖1 - u‖ ^ 2 + ‖u‖ ^ 2) * (‖v k‖ ^ 2 + ‖v (m - k)‖ ^ 2) := by ring
    rw [hw, one_mul] at this
    linarith
  refine le_trans (sum_le_sum h1) ?_
  rw [← mul_sum, mul_comm (2:ℝ), mul_assoc]
  refine mul_le_mul_of_nonneg_left ?_ (by positivity)
  exact pre_sum m fun t => ‖v t‖ ^ 2

/-- conjugate symmetry of a vector of length `n` -/
def Herm (n : ℕ) (X : ℕ → ℂ) : Prop := (X 0).im = 0 ∧ ∀ k, 0 < k → k < n → X (n - k) = (starRingEnd ℂ) (X k)

theorem Herm.sub {n : ℕ} {X Y : ℕ → ℂ} (hX : Herm n X) (hY : Herm n Y) : Herm n (fun t => X t - Y t) := by
  refine ⟨by rw [Complex.sub_im, hX.1, hY.1, sub_self], fun k h0 hk => ?_⟩
  show X (n - k) - Y (n - k) = (starRingEnd ℂ) (X k - Y k)
  rw [hX.2 k h0 hk, hY.2 k h0 hk, map_sub]

/-- the symmetric case, exactly -/
theorem pre_nrm_herm (thr : Thr) {mode : ScaleMode} {m : ℕ} (h2 : 2 ≤ m) {X : ℕ → ℂ} (hX : Herm (2 * m) X) :
    nrm (range m) (rfftPreOut mode m (rfftTab ℂ (2 * m)) X) = scI (2 * m) mode / √2 * nrm (range (2 * m)) X := by
  obtain ⟨-, -, b3⟩ := scI_bounds (m := m) (by omega) mode
  have hs := ApLaws.scR_pos m (rfftInvMode mode) (by omega)
  have hs' := ApLaws.scR_pos (2 * m) mode (by omega)
  have h1 : nrm (range (2 * m)) (rfftInvOut ℂ thr mode m X) = scR (2 * m) mode * √((2 * m : ℕ) : ℝ) * nrm (range (2 * m)) X := by
    rw [nrm_congr (w := fun t => (scR (2 * m) mode : ℂ) * xdft true (2 * m) X t) fun t ht => by
      rw [rfftInvOut_C h2 hX.1 hX.2 (mem_range.1 ht), scC_eq, Spec.idft_eq], nrm_mul, xdft_nrm, Complex.norm_real,
      Real.norm_of_nonneg hs'.le, mul_assoc]
  unfold rfftInvOut at h1
  rw [unpack_nrm, fftOut_nrm h2] at h1
  have e2 : √((2 * m : ℕ) : ℝ) = √2 * √m := by push_cast; exact Real.sqrt_mul (by norm_num) _
  have hm1 : 0 < √(m:ℝ) := Real.sqrt_pos.2 (by exact_mod_cast (by omega : 0 < m))
  have h22 : √(2:ℝ) * √2 = 2 := Real.mul_self_sqrt (by norm_num)
  rw [e2] at h1
  have hp : scR m (rfftInvMode mode) * √m ≠ 0 := (mul_pos hs hm1).ne'
  apply mul_left_cancel₀ hp
  rw [h1]
  have hr2 : √(2:ℝ) ≠ 0 := by positivity
  field_simp
  linear_combination (nrm (range (2 * m)) X * scR (2 * m) mode) * h22 - nrm (range (2 * m)) X * b3

namespace Flt.VAp
variable {F : Type} [FArith F] [CArith F (Xmm F)] {c : Flt F}
  {v : ℕ → ℂ} {v' : ℕ → Xmm F} {φ B f : ℝ} {k m : ℕ} {thr : Thr} {mode : ScaleMode}

theorem pre (L : ApReal (C := Xmm F) c.Ap c.m0 c.G) (h2 : 2 ≤ m) (h31 : 2 * m ≤ 2 ^ 31) {N q : ℕ} {lam l D : ℝ} (hN : m + 1 ≤ N)
    (hv : c.VAp (range N) v v' φ B k) (hf : √N * f ≤ φ) (hf0 : c.m0 ≤ f) (hfs : c.m0 ≤ scI (2 * m) mode * f) (hl : 0 ≤ lam) (hq : 1 ≤ q)
    (hlip : nrm (range m) (fun t => rfftPreOut mode m (rfftTab ℂ (2 * m)) (fun s => c.cv (v' s)) t -
      rfftPreOut mode m (rfftTab ℂ (2 * m)) v t) ≤ lam * nrm (range N) (fun t => c.cv (v' t) - v t))
    (hnorm : nrm (range m) (rfftPreOut mode m (rfftTab ℂ (2 * m)) v) ≤ lam * nrm (range N) v)
    (hl0 : 0 ≤ l) (hD : 2 * D ≤ l ^ 2)
    (hsum : ∑ t ∈ range m, ((‖c.cv (v' t)‖ + f) ^ 2 + (‖c.cv (v' (m - t))‖ + f) ^ 2) ≤ D * ∑ t ∈ range N, (‖c.cv (v' t)‖ + f) ^ 2)
    (hlq : scI (2 * m) mode * 2 * l ≤ lam * q) (hk : k + q * 84 ≤ c.K) (hG : lam * q * (2 * B) ≤ c.G) (hG' : 16 * B ≤ c.G) :
    c.VAp (range m) (rfftPreOut mode m (rfftTab ℂ (2 * m)) v) (rfftPreOut mode m (rfftTab (Xmm F) (2 * m)) v') (lam * φ) (lam * B)
      (k + q * 84) := by
  obtain ⟨b1, b2, -⟩ := scI_bounds (m := m) (by omega) mode
  have hs0 : 0 ≤ scI (2 * m) mode := le_trans (ApLaws.scR_pos (2 * m) mode (by omega)).le b1
  have hff : 0 ≤ f := le_trans c.m0_pos.le hf0
  have hfφ : f ≤ φ := by
    have : 1 ≤ √(N:ℝ) := Real.one_le_sqrt.2 (by exact_mod_cast (by omega : 1 ≤ N))
    nlinarith
  set Y : ℕ → ℝ := fun t => ‖c.cv (v' t)‖ + f with hY
  have hY0 : ∀ t, f ≤ Y t := fun t => by have := norm_nonneg (c.cv (v' t)); simp only [hY]; linarith
  have hap : ∀ t ≤ m, c.Ap (c.cv (v' t)) (v' t) (Y t) 0 := fun t ht => ap_self (hv.fin t (mem_range.2 (by omega))) hf0
  have hYB : ∀ t ≤ m, Y t ≤ 2 * B := fun t ht => hv.entry_le (by omega) hfφ (mem_range.2 (by omega))
  have hu := fun t (ht : t ≤ 2 * m) => L.rfftTab_ap (N := 2 * m) (t := t) (by omega) h31 ht
  refine VAp.step (S := rfftPreOut mode m (rfftTab ℂ (2 * m))) (S' := rfftPreOut mode m (rfftTab (Xmm F) (2 * m)))
    (M := fun t => scI (2 * m) mode * 2 * (Y t + Y (m - t))) (k0 := 84) (q := q) hv hl hq hlip hnorm ?_ ?_ hk hG
  · intro t ht
    have ht := mem_range.1 ht
    have y1 := hYB t ht.le
    have y2 := hYB (m - t) (by omega)
    have y3 := hY0 t
    have y4 := hY0 (m - t)
    have a := hap t ht.le
    have b := hap (m - t) (by omega)
    have h1 := L.mono (L.tw_mul (hu t (by omega)) (L.sub (L.cnj a) b)) (M' := Y t + Y (m - t)) (k' := 77) le_rfl (by omega)
    have h2 := L.mono (L.cnj (L.sub (L.cnj a) h1)) (M' := 2 * (Y t + Y (m - t))) (k' := 78) (by linarith) (by omega)
    have := L.rscInv (2 * m) mode (by omega) h31 h2 (by linarith) (le_trans hfs (mul_le_mul_of_nonneg_left (by linarith) hs0))
    rw [← mul_assoc] at this
    exact this
  · have h := nrm_two (A := range N) (B := range m) (y := Y) (p := fun t => t) (q := fun t => m - t) (D := D) (lam := l) hl0 hD hsum
      (s := scI (2 * m) mode * 2) (by positivity)
    refine le_trans h ?_
    have h3 := nrm_shift (A := range N) (v := fun t => c.cv (v' t)) hff
    rw [card_range] at h3
    have h4 := nrm_nonneg (A := range N) (v := fun t => c.cv (v' t))
    calc _ ≤ scI (2 * m) mode * 2 * l * (nrm (range N) (fun t => c.cv (v' t)) + φ) :=
          mul_le_mul_of_nonneg_left (by linarith) (by positivity)
      _ ≤ _ := mul_le_mul_of_nonneg_right hlq (by linarith)

theorem unpack (L : ApReal (C := Xmm F) c.Ap c.m0 c.G) (hv : c.VAp (range m) v v' φ B k) (hφ : c.m0 ≤ φ) (hG : 2 * B ≤ c.G)
    (hk : k ≤ c.K) : c.VAp (range (2 * m)) (unpackD ℂ v) (unpackD (Xmm F) v') φ B k := by
  have key : ∀ t ∈ range (2 * m), cfin c.fin (unpackD (Xmm F) v' t) ∧ c.cv (unpackD (Xmm F) v' t) = unpackD ℂ (fun s => c.cv (v' s)) t := by
    intro t ht
    have ht := mem_range.1 ht
    have h0 := mem_range.2 (show t / 2 < m by omega)
    have a := ap_self (hv.fin _ h0) hφ
    have e0 := hv.entry_le hk le_rfl h0
    have : c.Ap (unpackD ℂ (fun s => c.cv (v' s)) t) (unpackD (Xmm F) v' t) (2 * B) 0 := by
      unfold unpackD
      split
      · exact L.mono (L.re a) e0 le_rfl
      · exact L.mono (L.im a) e0 le_rfl
    obtain ⟨f, -, e⟩ := this.2 hG (Nat.zero_le _)
    refine ⟨f, ?_⟩
    rw [pow_zero, sub_self, mul_zero] at e
    exact sub_eq_zero.1 (norm_le_zero_iff.1 e)
  have := VAp.exact (lam := 1) (S := unpackD ℂ) (S' := unpackD (Xmm F)) hv zero_le_one (fun t ht => (key t ht).1) (fun t ht => (key t ht).2)
    (by rw [one_mul, nrm_congr fun t _ => unpack_sub _ _ t, unpack_nrm]) (by rw [one_mul, unpack_nrm])
  rwa [one_mul, one_mul] at this

omit [CArith F (Xmm F)] in
theorem sizes (h2 : 2 ≤ m) (h31 : 2 * m ≤ 2 ^ 31) : √((2 * m : ℕ) : ℝ) = √2 * √m ∧ 1 ≤ √(m:ℝ) ∧ √((2 * m : ℕ) : ℝ) ≤ 2 ^ 16 ∧
    2 ≤ √((2 * m : ℕ) : ℝ) := by
  refine ⟨by push_cast; exact Real.sqrt_mul (by norm_num) _, Real.one_le_sqrt.2 (by exact_mod_cast (by omega : 1 ≤ m)), ?_, ?_⟩
  · rw [Real.sqrt_le_left (by positivity)]
    have : ((2 * m : ℕ):ℝ) ≤ 2 ^ 31 := by exact_mod_cast h31
    exact le_trans this (by norm_num)
  · have : (4:ℝ) ≤ (2 * m : ℕ) := by exact_mod_cast (by omega : 4 ≤ 2 * m)
    exact Real.le_sqrt_of_sq_le (by linarith)

/-- the part of the inverse transform after the pre-processing -/
theorem rfftInvTail (L : ApReal (C := Xmm F) c.Ap c.m0 c.G) (hK : 1000 ≤ c.K) (h2 : 2 ≤ m) (h31 : 2 * m ≤ 2 ^ 31)
    (hv : c.VAp (range m) v v' φ B k) (hφ : 2 ^ 16 * c.m0 ≤ φ) (hs : 2 ^ 16 * c.m0 ≤ scR m mode * φ) (hG : √m * (2 * B) ≤ c.G)
    (hk : k + errWeight2 m ≤ c.K) :
    c.VAp (range (2 * m)) (unpackD ℂ (fftOut ℂ thr true mode m v)) (unpackD (Xmm F) (fftOut (Xmm F) thr true mode m v'))
      (√m * scR m mode * φ) (√m * scR m mode * B) (k + errWeight2 m) := by
  obtain ⟨e2, hm1, hm16, hm2⟩ := sizes h2 h31
  have hm0 := c.m0_pos
  have hB := hv.B0
  have hφ0 := hv.phi0
  have hmm : √(m:ℝ) ≤ 2 ^ 16 := by
    rw [e2] at hm16
    nlinarith [sqrt2_bounds.1]
  have h1 : √(m:ℝ) * c.m0 ≤ 2 ^ 16 * c.m0 := mul_le_mul_of_nonneg_right hmm hm0.le
  have hsr := ApLaws.scR_range m mode (by omega) (by omega)
  have hs0 : 0 ≤ scR m mode := le_trans (by positivity) hsr.1
  have p := fft (thr := thr) (mode := mode) (inv := true) L hK h2 (by omega) hv (by linarith) (by linarith) hG hk
  refine unpack L p ?_ ?_ hk
  · have : scR m mode * φ ≤ √m * (scR m mode * φ) := le_mul_of_one_le_left (mul_nonneg hs0 hφ0) hm1
    rw [mul_assoc]
    linarith
  · have : √m * (scR m mode * B) ≤ √m * B := mul_le_mul_of_nonneg_left (by nlinarith [hsr.2]) (by linarith)
    rw [mul_assoc]
    linarith

/-- the inverse real transform of a conjugate symmetric vector -/
theorem rfftInv (L : ApReal (C := Xmm F) c.Ap c.m0 c.G) (hK : 1000 ≤ c.K) (h2 : 2 ≤ m) (h31 : 2 * m ≤ 2 ^ 31)
    (hX : Herm (2 * m) v) (hX' : Herm (2 * m) fun t => c.cv (v' t))
    (hv : c.VAp (range (2 * m)) v v' φ B k) (hφ : 2 ^ 17 * c.m0 ≤ scR (2 * m) mode * φ)
    (hG : 16 * (√(2 * m : ℕ) * B) ≤ c.G) (hk : k + errWeight2 m + 336 ≤ c.K) :
    c.VAp (range (2 * m)) (rfftInvOut ℂ thr mode m v) (rfftInvOut (Xmm F) thr mode m v') (√(2 * m : ℕ) * scR (2 * m) mode * φ)
      (√(2 * m : ℕ) * scR (2 * m) mode * B) (k + errWeight2 m + 336) := by
  obtain ⟨b1, b2, b3⟩ := scI_bounds (m := m) (by omega) mode
  have hs := ApLaws.scR_range (2 * m) mode (by omega) h31
  have hs0 := ApLaws.scR_pos (2 * m) mode (by omega)
  have hI0 : 0 < scI (2 * m) mode := lt_of_lt_of_le hs0 b1
  have hsm := ApLaws.scR_pos m (rfftInvMode mode) (by omega)
  have hm0 := c.m0_pos
  have hφ0 := hv.phi0
  have hB := hv.B0
  obtain ⟨e2, hm1, hm16, hm2⟩ := sizes h2 h31
  obtain ⟨l2, u2⟩ := sqrt2_bounds
  have h22 : √(2:ℝ) * √2 = 2 := Real.mul_self_sqrt (by norm_num)
  have h1 : 2 ^ 17 * c.m0 ≤ φ := le_trans hφ (by nlinarith [hs.2])
  have hIφ : 2 ^ 17 * c.m0 ≤ scI (2 * m) mode * φ := le_trans hφ (mul_le_mul_of_nonneg_right b1 hφ0)
  have hr : 0 < √((2 * m : ℕ) : ℝ) := by linarith
  have hr16 : √((2 * m : ℕ) : ℝ) * c.m0 ≤ 2 ^ 16 * c.m0 := mul_le_mul_of_nonneg_right hm16 hm0.le
  have hB2 : 2 * B ≤ √(2 * m : ℕ) * B := mul_le_mul_of_nonneg_right hm2 hB
  have hlam : 0 ≤ scI (2 * m) mode / √2 := by positivity
  have hlam2 : scI (2 * m) mode / √2 ≤ 2 := by
    rw [div_le_iff₀ (by linarith)]; nlinarith
  have p1 := pre (mode := mode) (N := 2 * m) (q := 4) (lam := scI (2 * m) mode / √2) (l := √2) (D := 1) (f := φ / √(2 * m : ℕ)) L h2 h31
    (by omega) hv (le_of_eq (by field_simp)) (by rw [le_div_iff₀ hr]; linarith) (by
      rw [← mul_div_assoc, le_div_iff₀ hr]; linarith) hlam (by norm_num)
    (by
      rw [nrm_congr fun t ht => pre_sub (by omega) (by have := mem_range.1 ht; omega) (fun s => c.cv (v' s)) v,
        pre_nrm_herm thr h2 (hX'.sub hX)])
    (pre_nrm_herm thr h2 hX).le (Real.sqrt_nonneg _) (by rw [Real.sq_sqrt (by norm_num)]; norm_num)
    (by
      rw [one_mul]
      refine le_of_eq (pre_sum_herm m (fun t => (‖c.cv (v' t)‖ + φ / √(2 * m : ℕ)) ^ 2) fun k h0 hk => ?_)
      have : ‖c.cv (v' (2 * m - k))‖ = ‖c.cv (v' k)‖ := by
        have h := hX'.2 k h0 hk
        beta_reduce at h
        rw [h, Complex.norm_conj]
      simp only [this])
    (le_of_eq (by
      have : √(2:ℝ) ≠ 0 := by positivity
      push_cast
      field_simp
      linear_combination 2 * h22)) (by omega) (by
      push_cast
      have : scI (2 * m) mode / √2 * 4 * (2 * B) ≤ 2 * 4 * (2 * B) := by
        refine mul_le_mul_of_nonneg_right ?_ (by linarith)
        linarith
      linarith) (by linarith)
  have hφ2 : scI (2 * m) mode / √2 * φ * √2 = scI (2 * m) mode * φ := by
    have : √(2:ℝ) ≠ 0 := by positivity
    field_simp
  have p2 := rfftInvTail (thr := thr) (mode := rfftInvMode mode) L hK h2 h31 p1 ?_ ?_ ?_ (by omega)
  · have e : √(m:ℝ) * scR m (rfftInvMode mode) * (scI (2 * m) mode / √2) = √(2 * m : ℕ) * scR (2 * m) mode := by
      have : √(2:ℝ) ≠ 0 := by positivity
      rw [e2]
      field_simp
      linear_combination b3 - scR (2 * m) mode * h22
    rw [← mul_assoc, ← mul_assoc, e, show k + 4 * 84 + errWeight2 m = k + errWeight2 m + 336 by omega] at p2
    exact p2
  · rw [div_mul_eq_mul_div, le_div_iff₀ (by linarith)]
    nlinarith
  · have e : scR m (rfftInvMode mode) * (scI (2 * m) mode / √2 * φ) = √2 * (scR (2 * m) mode * φ) := by
      have : √(2:ℝ) ≠ 0 := by positivity
      field_simp
      linear_combination φ * b3 - φ * scR (2 * m) mode * h22
    rw [e]
    have : 0 ≤ scR (2 * m) mode * φ := by positivity
    nlinarith
  · have h3 : scI (2 * m) mode / √2 * B ≤ 2 * B := mul_le_mul_of_nonneg_right hlam2 hB
    have h4 : √(m:ℝ) * (2 * (scI (2 * m) mode / √2 * B)) ≤ √m * (2 * (2 * B)) :=
      mul_le_mul_of_nonneg_left (by linarith) (by linarith)
    rw [e2] at hG
    have : 0 ≤ √(m:ℝ) * B := by positivity
    nlinarith

end Flt.VAp

/-! ### the cosine transforms -/

theorem gath_nrm (m : ℕ) (v : ℕ → ℂ) : nrm (range (2 * m)) (dctGath m v) = nrm (range (2 * m)) v := by
  unfold nrm
  rw [sum_fold m (fun q => ‖dctGath m v q‖ ^ 2), sum_even_odd_real m (fun q => ‖v q‖ ^ 2)]
  congr 2
  · refine sum_congr rfl fun p hp => ?_
    have := mem_range.1 hp
    rw [dctGath, if_pos this]
  · refine sum_congr rfl fun p hp => ?_
    have := mem_range.1 hp
    rw [dctGath, if_neg (by omega), show 2 * m - 1 - (2 * m - 1 - p) = p by omega]

theorem scat_nrm (m : ℕ) (v : ℕ → ℂ) : nrm (range (2 * m)) (dctScat m v) = nrm (range (2 * m)) v := by
  unfold nrm
  rw [sum_fold m (fun q => ‖v q‖ ^ 2), sum_even_odd_real m (fun q => ‖dctScat m v q‖ ^ 2)]
  congr 2
  · refine sum_congr rfl fun p hp => ?_
    rw [dctScat, if_pos (by omega), show 2 * p / 2 = p by omega]
  · refine sum_congr rfl fun p hp => ?_
    rw [dctScat, if_neg (by omega), show (2 * p + 1) / 2 = p by omega]

theorem dctV_norm (N k : ℕ) : ‖dctV N k‖ = 1 := by
  have h := congrArg norm (dctV_conj_mul N k)
  rw [norm_mul, Complex.norm_conj, norm_one] at h
  nlinarith [norm_nonneg (dctV N k)]

theorem tw_norm {N t : ℕ} (ht : t < N) (Z : ℕ → ℂ) : ‖dctTw ℂ (dctTab ℂ N) Z t‖ ≤ ‖Z t‖ := by
  rw [dctTw_C, dctTab_C (by omega) (by omega), Complex.norm_real, Real.norm_eq_abs]
  refine le_trans (Complex.abs_re_le_norm _) ?_
  rw [norm_mul, Complex.norm_conj, dctV_norm, one_mul]

theorem tw_sub (V Z W : ℕ → ℂ) (t : ℕ) : dctTw ℂ V Z t - dctTw ℂ V W t = dctTw ℂ V (fun s => Z s - W s) t := by
  rw [dctTw_C, dctTw_C, dctTw_C, mul_sub, Complex.sub_re, Complex.ofReal_sub]

theorem dctPreV_re {N : ℕ} (hN : 1 ≤ N) (v : ℕ → ℂ) {k : ℕ} (hk : k < N) :
    dctPreV ℂ N (dctTab ℂ N) v k = dctP N (fun s => (v s).re) k := by
  rw [← dctPreV_C hN _ hk]
  rfl

theorem dctP_sub (N : ℕ) (X Y : ℕ → ℝ) (k : ℕ) : dctP N X k - dctP N Y k = dctP N (fun s => X s - Y s) k := by
  unfold dctP
  split
  · push_cast; ring
  · push_cast; ring

theorem dctP_normSq {N k : ℕ} (hk : k < N) (X : ℕ → ℝ) : ‖dctP N X k‖ ^ 2 ≤ X k ^ 2 + X ((N - k) % N) ^ 2 := by
  unfold dctP
  split
  · rename_i h; subst h
    rw [Complex.norm_real, Real.norm_eq_abs, sq_abs]
    nlinarith [sq_nonneg (X ((N - 0) % N))]
  · rename_i h
    rw [norm_mul, dctV_norm, one_mul, Nat.mod_eq_of_lt (by omega), ← Complex.normSq_eq_norm_sq, Complex.normSq_apply]
    simp
    nlinarith

theorem dctP_nrm (N : ℕ) (X : ℕ → ℝ) : nrm (range N) (dctP N X) ≤ √2 * nrm (range N) (fun t => (X t : ℂ)) := by
  refine nrm_le_of_sq (Real.sqrt_nonneg _) ?_
  have e : ∀ x : ℝ, ‖(x : ℂ)‖ ^ 2 = x ^ 2 := fun x => by rw [Complex.norm_real, Real.norm_eq_abs, sq_abs]
  simp only [e]
  rw [Real.sq_sqrt (by norm_num)]
  refine le_trans (sum_le_sum fun k hk => dctP_normSq (mem_range.1 hk) X) ?_
  rw [sum_add_distrib, sum_mirror N fun t => X t ^ 2]
  linarith

theorem re_nrm {A : Finset ℕ} (v : ℕ → ℂ) : nrm A (fun t => ((v t).re : ℂ)) ≤ nrm A v :=
  nrm_mono fun t _ => by
    rw [Complex.norm_real, Real.norm_eq_abs]
    exact Complex.abs_re_le_norm _

theorem dctP_Herm {N : ℕ} (hN : 1 ≤ N) (X : ℕ → ℝ) : Herm N (dctP N X) := hermitian_facts (dctP_herm hN X) hN

theorem pre_congr {mode : ScaleMode} {m k : ℕ} {v w : ℕ → ℂ} (hk : k < m) (h : ∀ t ≤ m, v t = w t) :
    rfftPreOut mode m (rfftTab ℂ (2 * m)) v k = rfftPreOut mode m (rfftTab ℂ (2 * m)) w k := by
  unfold rfftPreOut
  rw [h k hk.le, h (m - k) (by omega)]

/-- both pre-processing steps of the inverse cosine transform together -/
noncomputable def dpre (C : Type) {F : Type} [DArith F] [CArith F C] (mode : ScaleMode) (m : ℕ) (v : ℕ → C) : ℕ → C :=
  rfftPreOut mode m (rfftTab C (2 * m)) (dctPreV C (2 * m) (dctTab C (2 * m)) v)

theorem dpre_C {mode : ScaleMode} {m : ℕ} (h1 : 1 ≤ m) (v : ℕ → ℂ) {t : ℕ} (ht : t < m) :
    dpre ℂ mode m v t = rfftPreOut mode m (rfftTab ℂ (2 * m)) (dctP (2 * m) fun s => (v s).re) t :=
  pre_congr ht fun s hs => dctPreV_re (by omega) v (by omega)

theorem dpre_sub {mode : ScaleMode} {m : ℕ} (h1 : 1 ≤ m) (v w : ℕ → ℂ) {t : ℕ} (ht : t < m) :
    dpre ℂ mode m v t - dpre ℂ mode m w t = dpre ℂ mode m (fun s => v s - w s) t := by
  rw [dpre_C h1 v ht, dpre_C h1 w ht, dpre_C h1 _ ht, pre_sub h1 (by omega)]
  refine pre_congr ht fun s _ => ?_
  exact dctP_sub _ _ _ _

theorem dpre_nrm (thr : Thr) {mode : ScaleMode} {m : ℕ} (h2 : 2 ≤ m) (v : ℕ → ℂ) :
    nrm (range m) (dpre ℂ mode m v) ≤ scI (2 * m) mode * nrm (range (2 * m)) v := by
  obtain ⟨b1, b2, -⟩ := scI_bounds (m := m) (by omega) mode
  have hs0 : 0 ≤ scI (2 * m) mode := le_trans (ApLaws.scR_pos (2 * m) mode (by omega)).le b1
  rw [nrm_congr fun t ht => dpre_C (by omega) v (mem_range.1 ht), pre_nrm_herm thr h2 (dctP_Herm (by omega) _)]
  have h1 := dctP_nrm (2 * m) fun s => (v s).re
  have h3 := re_nrm (A := range (2 * m)) v
  have h4 : 0 < √(2:ℝ) := by positivity
  calc _ ≤ scI (2 * m) mode / √2 * (√2 * nrm (range (2 * m)) v) :=
        mul_le_mul_of_nonneg_left (le_trans h1 (mul_le_mul_of_nonneg_left h3 h4.le)) (by positivity)
    _ = _ := by field_simp

namespace Flt.VAp
variable {F : Type} [FArith F] [CArith F (Xmm F)] {c : Flt F}
  {v : ℕ → ℂ} {v' : ℕ → Xmm F} {φ B f : ℝ} {k m : ℕ} {thr : Thr} {mode : ScaleMode}

omit [CArith F (Xmm F)] in
theorem gath (hv : c.VAp (range (2 * m)) v v' φ B k) : c.VAp (range (2 * m)) (dctGath m v) (dctGath m v') φ B k := by
  have := VAp.exact (lam := 1) (S := dctGath m) (S' := dctGath m) (Bs := range (2 * m)) hv zero_le_one
    (fun t ht => by
      have := mem_range.1 ht
      unfold dctGath
      split
      · exact hv.fin _ (mem_range.2 (by omega))
      · exact hv.fin _ (mem_range.2 (by omega)))
    (fun t ht => by unfold dctGath; split <;> rfl)
    (by
      rw [one_mul, nrm_congr (w := dctGath m fun s => c.cv (v' s) - v s) fun t _ => by unfold dctGath; split <;> rfl, gath_nrm])
    (by rw [one_mul, gath_nrm])
  rwa [one_mul, one_mul] at this

omit [CArith F (Xmm F)] in
theorem scat (hv : c.VAp (range (2 * m)) v v' φ B k) : c.VAp (range (2 * m)) (dctScat m v) (dctScat m v') φ B k := by
  have := VAp.exact (lam := 1) (S := dctScat m) (S' := dctScat m) (Bs := range (2 * m)) hv zero_le_one
    (fun t ht => by
      have := mem_range.1 ht
      unfold dctScat
      split
      · exact hv.fin _ (mem_range.2 (by omega))
      · exact hv.fin _ (mem_range.2 (by omega)))
    (fun t ht => by unfold dctScat; split <;> rfl)
    (by
      rw [one_mul, nrm_congr (w := dctScat m fun s => c.cv (v' s) - v s) fun t _ => by unfold dctScat; split <;> rfl, scat_nrm])
    (by rw [one_mul, scat_nrm])
  rwa [one_mul, one_mul] at this

theorem tw (L : ApReal (C := Xmm F) c.Ap c.m0 c.G) {N : ℕ} (h1 : 1 ≤ N) (h31 : 2 * N ≤ 2 ^ 31)
    (hv : c.VAp (range N) v v' φ B k) (hφ : √N * c.m0 ≤ φ) (hG : 2 * B ≤ c.G) (hk : k + 33 ≤ c.K) :
    c.VAp (range N) (dctTw ℂ (dctTab ℂ N) v) (dctTw (Xmm F) (dctTab (Xmm F) N) v') φ B (k + 33) := by
  have := VAp.step (lam := 1) (k0 := 33) (q := 1) (S := dctTw ℂ (dctTab ℂ N)) (S' := dctTw (Xmm F) (dctTab (Xmm F) N)) (Bs := range N)
    (M := fun t => ‖c.cv (v' t)‖ + c.m0) hv zero_le_one le_rfl
    (by
      rw [one_mul, nrm_congr fun t _ => tw_sub _ _ _ t]
      exact nrm_mono fun t ht => tw_norm (mem_range.1 ht) _)
    (by
      rw [one_mul]
      exact nrm_mono fun t ht => tw_norm (mem_range.1 ht) _)
    (fun t ht => by
      have h := ap_self (hv.fin t ht) (le_refl c.m0)
      have hw := L.dctTab_ap (N := N) (t := t) h1 h31 (mem_range.1 ht).le
      unfold dctTw
      split
      · exact L.mono (L.dotRe hw h _ _) le_rfl (by omega)
      · exact L.mono (L.dotIm hw h _ _) le_rfl (by omega))
    (by
      have := nrm_shift (A := range N) (v := fun t => c.cv (v' t)) c.m0_pos.le
      rw [card_range] at this
      rw [Nat.cast_one, one_mul, one_mul]
      exact le_trans this (by linarith)) (by omega) (by push_cast; linarith)
  rwa [one_mul, one_mul, one_mul] at this

theorem dctFwd (L : ApReal (C := Xmm F) c.Ap c.m0 c.G) (hK : 1000 ≤ c.K) (h2 : 2 ≤ m) (h31 : 2 * (2 * m) ≤ 2 ^ 31)
    (hv : c.VAp (range (2 * m)) v v' φ B k) (hφ : 2 ^ 16 * c.m0 ≤ scR (2 * m) mode * φ)
    (hG : 16 * (√(2 * m : ℕ) * B) ≤ c.G) (hk : k + errWeight2 m + 369 ≤ c.K) :
    c.VAp (range (2 * m)) (dctTw ℂ (dctTab ℂ (2 * m)) (rfftFwdOut ℂ thr mode m (dctGath m v)))
      (dctTw (Xmm F) (dctTab (Xmm F) (2 * m)) (rfftFwdOut (Xmm F) thr mode m (dctGath m v'))) (√(2 * m : ℕ) * scR (2 * m) mode * φ)
      (√(2 * m : ℕ) * scR (2 * m) mode * B) (k + errWeight2 m + 369) := by
  obtain ⟨e2, hm1, hm16, hm2⟩ := sizes h2 (by omega)
  have hs := ApLaws.scR_range (2 * m) mode (by omega) (by omega)
  have hm0 := c.m0_pos
  have p := rfftFwd (thr := thr) (mode := mode) L hK h2 (by omega) hv.gath hφ hG (by omega)
  have hB := hv.B0
  have q := tw L (by omega) h31 p (by
    have h1 : c.m0 ≤ scR (2 * m) mode * φ := by linarith
    have := mul_le_mul_of_nonneg_left h1 (Real.sqrt_nonneg ((2 * m : ℕ) : ℝ))
    linarith) (by
    have : √(2 * m : ℕ) * B * scR (2 * m) mode ≤ √(2 * m : ℕ) * B * 1 := mul_le_mul_of_nonneg_left hs.2 (by positivity)
    have h0 : 0 ≤ √((2 * m : ℕ) : ℝ) * B := by positivity
    nlinarith) (by omega)
  rwa [show k + errWeight2 m + 336 + 33 = k + errWeight2 m + 369 by omega] at q

theorem dctPre (thr : Thr) (L : ApReal (C := Xmm F) c.Ap c.m0 c.G) (h2 : 2 ≤ m) (h31 : 2 * (2 * m) ≤ 2 ^ 31)
    (hv : c.VAp (range (2 * m)) v v' φ B k) (hφ : 2 ^ 16 * c.m0 ≤ φ) (hs : 2 ^ 16 * c.m0 ≤ scI (2 * m) mode * φ)
    (hk : k + 9 * 117 ≤ c.K) (hG : 36 * B ≤ c.G) :
    c.VAp (range m) (dpre ℂ mode m v) (dpre (Xmm F) mode m v') (scI (2 * m) mode * φ) (scI (2 * m) mode * B) (k + 9 * 117) := by
  obtain ⟨b1, b2, -⟩ := scI_bounds (m := m) (by omega) mode
  have hs0 : 0 ≤ scI (2 * m) mode := le_trans (ApLaws.scR_pos (2 * m) mode (by omega)).le b1
  obtain ⟨e2, hm1, hm16, hm2⟩ := sizes h2 (by omega)
  have hm0 := c.m0_pos
  have hB := hv.B0
  have hφ0 := hv.phi0
  have hr : 0 < √((2 * m : ℕ) : ℝ) := by linarith
  have hr16 : √((2 * m : ℕ) : ℝ) * c.m0 ≤ 2 ^ 16 * c.m0 := mul_le_mul_of_nonneg_right hm16 hm0.le
  set f := φ / √(2 * m : ℕ) with hf
  have hf0 : c.m0 ≤ f := by rw [hf, le_div_iff₀ hr]; linarith
  have hfs : c.m0 ≤ scI (2 * m) mode * f := by rw [hf, ← mul_div_assoc, le_div_iff₀ hr]; linarith
  have hff : 0 ≤ f := by linarith
  have hfφ : √(2 * m : ℕ) * f = φ := by rw [hf]; field_simp
  have hfφ' : f ≤ φ := by nlinarith
  set Y : ℕ → ℝ := fun t => ‖c.cv (v' t)‖ + f with hY
  have hY0 : ∀ t, f ≤ Y t := fun t => by have := norm_nonneg (c.cv (v' t)); simp only [hY]; linarith
  have hap : ∀ t < 2 * m, c.Ap (c.cv (v' t)) (v' t) (Y t) 0 := fun t ht => ap_self (hv.fin t (mem_range.2 (by omega))) hf0
  have hYB : ∀ t < 2 * m, Y t ≤ 2 * B := fun t ht => hv.entry_le (by omega) hfφ' (mem_range.2 (by omega))
  set P : ℕ → ℝ := fun t => 3 / 2 * (Y t + Y ((2 * m - t) % (2 * m))) with hP
  have hP0 : ∀ t, f ≤ P t := fun t => by
    have := hY0 t
    have := hY0 ((2 * m - t) % (2 * m))
    simp only [hP]; linarith
  have hPB : ∀ t < 2 * m, P t ≤ 6 * B := fun t ht => by
    have := hYB t ht
    have := hYB ((2 * m - t) % (2 * m)) (Nat.mod_lt _ (by omega))
    simp only [hP]; linarith
  have hPm : ∀ t, 0 < t → t < 2 * m → P (2 * m - t) = P t := fun t h0 ht => by
    simp only [hP]
    rw [show 2 * m - (2 * m - t) = t by omega, Nat.mod_eq_of_lt ht, Nat.mod_eq_of_lt (by omega), add_comm]
  have hpre : ∀ t ≤ m, c.Ap (dctPreV ℂ (2 * m) (dctTab ℂ (2 * m)) (fun s => c.cv (v' s)) t)
      (dctPreV (Xmm F) (2 * m) (dctTab (Xmm F) (2 * m)) v' t) (P t) 33 := by
    intro t ht
    have y1 := hY0 t
    have y2 := hY0 ((2 * m - t) % (2 * m))
    unfold dctPreV
    split
    · rename_i h
      subst h
      exact L.mono (L.re (hap 0 (by omega))) (by simp only [hP]; linarith) (by omega)
    · rename_i h
      have hm : (2 * m - t) % (2 * m) = 2 * m - t := Nat.mod_eq_of_lt (by omega)
      rw [hm] at y2
      have a1 := L.mono (L.re (hap t (by omega))) (M' := Y t + Y (2 * m - t)) (by linarith) le_rfl
      have a2 := L.mono (L.dneg (L.re (hap (2 * m - t) (by omega)))) (M' := Y t + Y (2 * m - t)) (by linarith) le_rfl
      refine L.mono (L.cmul (L.dctTab_ap (N := 2 * m) (t := t) (by omega) h31 (by omega)) (L.cmk a1 a2)) ?_ (by omega)
      simp only [hP, hm]
      exact le_rfl
  have hu := fun t (ht : t ≤ 2 * m) => L.rfftTab_ap (N := 2 * m) (t := t) (by omega) (by omega) ht
  refine VAp.step (S := dpre ℂ mode m) (S' := dpre (Xmm F) mode m) (M := fun t => scI (2 * m) mode * 2 * (P t + P (m - t)))
    (k0 := 117) (q := 9) hv hs0 (by norm_num)
    (by
      rw [nrm_congr fun t ht => dpre_sub (by omega) _ _ (mem_range.1 ht)]
      exact dpre_nrm thr h2 _)
    (dpre_nrm thr h2 v) ?_ ?_ hk ?_
  · intro t ht
    have ht := mem_range.1 ht
    have y1 := hPB t (by omega)
    have y2 := hPB (m - t) (by omega)
    have y3 := hP0 t
    have y4 := hP0 (m - t)
    have a := hpre t ht.le
    have b := hpre (m - t) (by omega)
    have h1 := L.mono (L.tw_mul (hu t (by omega)) (L.sub (L.cnj a) b)) (M' := P t + P (m - t)) (k' := 110) le_rfl (by omega)
    have h2 := L.mono (L.cnj (L.sub (L.cnj a) h1)) (M' := 2 * (P t + P (m - t))) (k' := 111) (by linarith) (by omega)
    have := L.rscInv (2 * m) mode (by omega) (by omega) h2 (by linarith) (le_trans hfs (mul_le_mul_of_nonneg_left (by linarith) hs0))
    rw [← mul_assoc] at this
    exact this
  · have h := nrm_two (A := range (2 * m)) (B := range m) (y := P) (p := fun t => t) (q := fun t => m - t) (D := 1) (lam := √2)
      (Real.sqrt_nonneg _) (by rw [Real.sq_sqrt (by norm_num)]; norm_num) (by
        rw [one_mul]
        exact le_of_eq (pre_sum_herm m (fun t => P t ^ 2) fun k h0 hk => by simp only [hPm k h0 hk]))
      (s := scI (2 * m) mode * 2) (by positivity)
    refine le_trans h ?_
    have h5 := nrm_two (A := range (2 * m)) (B := range (2 * m)) (y := Y) (p := fun t => t) (q := fun t => (2 * m - t) % (2 * m)) (D := 2)
      (lam := 2) (by norm_num) (by norm_num) (by
        rw [sum_add_distrib, sum_mirror (2 * m) fun t => Y t ^ 2]
        linarith) (s := 3 / 2) (by norm_num)
    have h3 := nrm_shift (A := range (2 * m)) (v := fun t => c.cv (v' t)) hff
    rw [card_range, hfφ] at h3
    have h4 := nrm_nonneg (A := range (2 * m)) (v := fun t => c.cv (v' t))
    have h6 : nrm (range (2 * m)) (fun t => (P t : ℂ)) ≤ 3 * (nrm (range (2 * m)) (fun t => c.cv (v' t)) + φ) := by
      refine le_trans h5 ?_
      have : nrm (range (2 * m)) (fun t => (Y t : ℂ)) ≤ nrm (range (2 * m)) (fun t => c.cv (v' t)) + φ := h3
      linarith
    obtain ⟨-, u2⟩ := sqrt2_bounds
    calc _ ≤ scI (2 * m) mode * 2 * √2 * (3 * (nrm (range (2 * m)) (fun t => c.cv (v' t)) + φ)) :=
          mul_le_mul_of_nonneg_left h6 (by positivity)
      _ = scI (2 * m) mode * (6 * √2) * (nrm (range (2 * m)) (fun t => c.cv (v' t)) + φ) := by ring
      _ ≤ _ := by
        refine mul_le_mul_of_nonneg_right (mul_le_mul_of_nonneg_left ?_ hs0) (by linarith)
        push_cast
        linarith
  · push_cast
    have : scI (2 * m) mode * B ≤ 2 * B := mul_le_mul_of_nonneg_right b2 hB
    linarith

theorem dctInv (L : ApReal (C := Xmm F) c.Ap c.m0 c.G) (hK : 1000 ≤ c.K) (h2 : 2 ≤ m) (h31 : 2 * (2 * m) ≤ 2 ^ 31)
    (hv : c.VAp (range (2 * m)) v v' φ B k) (hφ : 2 ^ 16 * c.m0 ≤ scR (2 * m) mode * φ)
    (hG : 18 * (√(2 * m : ℕ) * B) ≤ c.G) (hk : k + errWeight2 m + 1053 ≤ c.K) :
    c.VAp (range (2 * m)) (dctScat m (rfftInvOut ℂ thr mode m (dctPreV ℂ (2 * m) (dctTab ℂ (2 * m)) v)))
      (dctScat m (rfftInvOut (Xmm F) thr mode m (dctPreV (Xmm F) (2 * m) (dctTab (Xmm F) (2 * m)) v')))
      (√2 * (√(2 * m : ℕ) * scR (2 * m) mode) * φ) (√2 * (√(2 * m : ℕ) * scR (2 * m) mode) * B) (k + errWeight2 m + 1053) := by
  obtain ⟨b1, b2, b3⟩ := scI_bounds (m := m) (by omega) mode
  obtain ⟨e2, hm1, hm16, hm2⟩ := sizes h2 (by omega)
  have hs := ApLaws.scR_range (2 * m) mode (by omega) (by omega)
  have hs0 := ApLaws.scR_pos (2 * m) mode (by omega)
  have hm0 := c.m0_pos
  have hφ0 := hv.phi0
  have hB := hv.B0
  have h22 : √(2:ℝ) * √2 = 2 := Real.mul_self_sqrt (by norm_num)
  have h1 : 2 ^ 16 * c.m0 ≤ φ := le_trans hφ (by nlinarith [hs.2])
  have hIφ : 2 ^ 16 * c.m0 ≤ scI (2 * m) mode * φ := le_trans hφ (mul_le_mul_of_nonneg_right b1 hφ0)
  have hB2 : 2 * B ≤ √(2 * m : ℕ) * B := mul_le_mul_of_nonneg_right hm2 hB
  have p1 := dctPre (mode := mode) thr L h2 h31 hv h1 hIφ (by omega) (by linarith)
  have p2 := rfftInvTail (thr := thr) (mode := rfftInvMode mode) L hK h2 (by omega) p1 hIφ (by
      rw [← mul_assoc, b3]
      have : 0 ≤ scR (2 * m) mode * φ := by positivity
      linarith) (by
      have h3 : scI (2 * m) mode * B ≤ 2 * B := mul_le_mul_of_nonneg_right b2 hB
      have h4 : √(m:ℝ) * (2 * (scI (2 * m) mode * B)) ≤ √m * (2 * (2 * B)) :=
        mul_le_mul_of_nonneg_left (by linarith) (by linarith)
      rw [e2] at hG
      have : 0 ≤ √(m:ℝ) * B := by positivity
      nlinarith [sqrt2_bounds.1]) (by omega)
  have e : √(m:ℝ) * scR m (rfftInvMode mode) * scI (2 * m) mode = √2 * (√(2 * m : ℕ) * scR (2 * m) mode) := by
    rw [e2]
    linear_combination √(m:ℝ) * b3 - √(m:ℝ) * scR (2 * m) mode * h22
  rw [← mul_assoc, ← mul_assoc, e, show k + 9 * 117 + errWeight2 m = k + errWeight2 m + 1053 by omega] at p2
  exact p2.scat

end Flt.VAp
end OTFFT
