/-
What the transforms of `DCT` compute over the complex numbers.
-/
import Verif.Proof.DCTObj
import Verif.Proof.RFFTDFT

namespace OTFFT
open Finset

/-- `exp(iπk/(2N))` -/
noncomputable def dctV (N k : ℕ) : ℂ := ⟨Real.cos (k * (Real.pi / (2 * N))), Real.sin (k * (Real.pi / (2 * N)))⟩

theorem dctTab_C {N t : ℕ} (hN : 1 ≤ N) (ht : t < N + 1) : dctTab ℂ N t = dctV N t := by
  obtain ⟨f1, f2, f3⟩ := dctIts_facts (C := ℂ) N
  refine tabOf_eq ?_ (f3 t ht)
  intro p hp tv htv
  have hth : (fmul (fofNat p) (fdiv fpi (fofNat (2 * N))) : ℝ) = p * (Real.pi / (2 * N)) := by
    simp [fmul, fofNat, fdiv, fpi]
  have hN0 : (N : ℝ) ≠ 0 := by exact_mod_cast (by omega : N ≠ 0)
  simp only [dctIts, hth, List.mem_cons, List.not_mem_nil, or_false] at htv
  rcases htv with rfl | rfl
  · rfl
  · have e : ((N - p : ℕ) : ℝ) * (Real.pi / (2 * N)) = Real.pi / 2 - p * (Real.pi / (2 * N)) := by
      rw [Nat.cast_sub (by omega)]; field_simp
    show (⟨_, _⟩ : ℂ) = dctV N (N - p)
    unfold dctV
    rw [e, Real.cos_pi_div_two_sub, Real.sin_pi_div_two_sub]
    rfl

theorem dctV_exp (N k : ℕ) : dctV N k = Complex.exp (((k * (Real.pi / (2 * N)) : ℝ) : ℂ) * Complex.I) := by
  apply Complex.ext
  · rw [Complex.exp_ofReal_mul_I_re]; rfl
  · rw [Complex.exp_ofReal_mul_I_im]; rfl

/-- `exp(iθ)` for real `θ` -/
noncomputable def cis (t : ℝ) : ℂ := Complex.exp ((t : ℂ) * Complex.I)

theorem cis_add (a b : ℝ) : cis (a + b) = cis a * cis b := by
  unfold cis; rw [← Complex.exp_add]; congr 1; push_cast; ring
theorem cis_re (a : ℝ) : (cis a).re = Real.cos a := by unfold cis; exact Complex.exp_ofReal_mul_I_re a
theorem cis_im (a : ℝ) : (cis a).im = Real.sin a := by unfold cis; exact Complex.exp_ofReal_mul_I_im a
theorem cis_conj (a : ℝ) : (starRingEnd ℂ) (cis a) = cis (-a) := by
  unfold cis; rw [← Complex.exp_conj]; congr 1; simp
theorem cis_ne (a : ℝ) : cis a ≠ 0 := Complex.exp_ne_zero _
theorem cis_zero : cis 0 = 1 := by unfold cis; simp
theorem cis_neg_mul (a : ℝ) : cis (-a) * cis a = 1 := by rw [← cis_add]; simp [cis_zero]
theorem cis_half_pi : cis (Real.pi / 2) = Complex.I := by
  unfold cis; push_cast; exact Complex.exp_pi_div_two_mul_I
theorem cis_nat (n : ℕ) : cis (n * (2 * Real.pi)) = 1 := by
  unfold cis
  rw [show ((n * (2 * Real.pi) : ℝ) : ℂ) * Complex.I = n * (2 * Real.pi * Complex.I) by push_cast; ring]
  exact Complex.exp_nat_mul_two_pi_mul_I n

theorem dctV_cis (N k : ℕ) : dctV N k = cis (k * (Real.pi / (2 * N))) := dctV_exp N k

theorem om_cis (N k : ℕ) : om true N ^ k = cis (k * (2 * Real.pi / N)) := by
  rw [om, ← Complex.exp_nat_mul, cis]
  congr 1
  push_cast; simp; ring

theorem om_cis' (N k : ℕ) : om false N ^ k = cis (-(k * (2 * Real.pi / N))) := by
  rw [← cis_conj, ← om_cis, map_pow, om_conj]; rfl

theorem sum_fold (m : ℕ) (f : ℕ → ℝ) :
    ∑ q ∈ range (2 * m), f q = ∑ p ∈ range m, f p + ∑ p ∈ range m, f (2 * m - 1 - p) := by
  rw [two_mul, sum_range_add]
  congr 1
  rw [← sum_range_reflect]
  refine sum_congr rfl fun p hp => ?_
  have := mem_range.1 hp
  congr 1; omega

theorem sum_even_odd_real (m : ℕ) (f : ℕ → ℝ) :
    ∑ j ∈ range (2 * m), f j = ∑ p ∈ range m, f (2 * p) + ∑ p ∈ range m, f (2 * p + 1) := by
  induction m with
  | zero => simp
  | succ m ih =>
    rw [show 2 * (m + 1) = 2 * m + 1 + 1 by ring, sum_range_succ, sum_range_succ, ih, sum_range_succ, sum_range_succ]
    ring

/-- the angle at the mirrored position -/
theorem cos_mirror {m p k : ℕ} (hm : 0 < m) (hp : p < m) :
    Real.cos (k * (Real.pi / (2 * ((2 * m : ℕ) : ℝ))) * (4 * ((2 * m - 1 - p : ℕ) : ℝ) + 1)) =
      Real.cos (k * (Real.pi / (2 * ((2 * m : ℕ) : ℝ))) * (4 * (p : ℝ) + 3)) := by
  have h0 : (m : ℝ) ≠ 0 := by exact_mod_cast (by omega : m ≠ 0)
  have e1 : ((2 * m - 1 - p : ℕ) : ℝ) = 2 * m - 1 - p := by
    rw [Nat.cast_sub (by omega), Nat.cast_sub (by omega)]; push_cast; ring
  rw [e1]
  have e2 : (k : ℝ) * (Real.pi / (2 * ((2 * m : ℕ) : ℝ))) * (4 * (2 * m - 1 - p) + 1) =
      k * (2 * Real.pi) - k * (Real.pi / (2 * ((2 * m : ℕ) : ℝ))) * (4 * (p : ℝ) + 3) := by
    push_cast; field_simp; ring
  rw [e2, Real.cos_nat_mul_two_pi_sub]

/-- mode of a DCT entry point -/
theorem dctTw_C (V Z : ℕ → ℂ) (k : ℕ) : dctTw ℂ V Z k = (((starRingEnd ℂ) (V k) * Z k).re : ℂ) := by
  unfold dctTw
  split <;> rw [ofD_C] <;> simp [haddpz, CArith.re, CArith.im, CArith.cmk, CArith.mulpd, fadd]

/-- the gathered vector for a real input -/
noncomputable def gathR (m : ℕ) (r : ℕ → ℝ) (q : ℕ) : ℝ := if q < m then r (2 * q) else r (2 * (2 * m - 1 - q) + 1)

theorem gath_ofReal (m : ℕ) (r : ℕ → ℝ) (q : ℕ) : (dctGath m (Spec.ofReal r) q).re = gathR m r q := by
  unfold dctGath gathR Spec.ofReal
  split <;> simp

/-- rotating the transform of the gathered vector gives the DCT -/
theorem rot_dft {m : ℕ} (hm : 0 < m) (r : ℕ → ℝ) (k : ℕ) :
    ((starRingEnd ℂ) (dctV (2 * m) k) * Spec.dft (2 * m) (Spec.ofReal (gathR m r)) k).re = Spec.dct (2 * m) r k := by
  have h0 : (m : ℝ) ≠ 0 := by exact_mod_cast (by omega : m ≠ 0)
  rw [Spec.dft_eq, xdft_sum, dctV_cis, cis_conj, mul_sum, Complex.re_sum]
  have e : ∀ q, (cis (-(k * (Real.pi / (2 * ((2 * m : ℕ) : ℝ))))) * (Spec.ofReal (gathR m r) q * om false (2 * m) ^ (q * k))).re =
      gathR m r q * Real.cos (k * (Real.pi / (2 * ((2 * m : ℕ) : ℝ))) * (4 * (q : ℝ) + 1)) := by
    intro q
    rw [om_cis', mul_left_comm, ← cis_add, Spec.ofReal, Complex.re_ofReal_mul, cis_re, ← Real.cos_neg]
    congr 2
    push_cast; field_simp; ring
  rw [sum_congr rfl fun q _ => e q, sum_fold, Spec.dct, sum_even_odd_real]
  congr 1
  · refine sum_congr rfl fun p hp => ?_
    have := mem_range.1 hp
    rw [gathR, if_pos this]
    congr 2
    push_cast; field_simp; ring
  · refine sum_congr rfl fun p hp => ?_
    have hp := mem_range.1 hp
    rw [gathR, if_neg (by omega), cos_mirror hm hp, show 2 * m - 1 - (2 * m - 1 - p) = p by omega]
    congr 2
    push_cast; field_simp; ring

/-- scaling of the DCT transforms -/
def DctEntry.mode (e : DctEntry) : ScaleMode := e.real.mode

theorem DctEntry.real_isInv (e : DctEntry) : e.real.isInv = e.isInv := by cases e <;> rfl

/-- what is fed to the inverse real transform -/
noncomputable def dctP (N : ℕ) (X : ℕ → ℝ) (k : ℕ) : ℂ :=
  if k = 0 then (X 0 : ℂ) else dctV N k * (X k - Complex.I * X (N - k))

theorem dctPreV_C {N : ℕ} (hN : 1 ≤ N) (X : ℕ → ℝ) {k : ℕ} (hk : k < N) :
    dctPreV ℂ N (dctTab ℂ N) (Spec.ofReal X) k = dctP N X k := by
  unfold dctPreV dctP
  split
  · rw [ofD_C]; simp [CArith.re, Spec.ofReal]
  · rw [dctTab_C hN (by omega)]
    show dctV N k * _ = _
    congr 1
    apply Complex.ext <;> simp [CArith.re, CArith.cmk, Spec.ofReal, fneg]

theorem dctV_sub {N k : ℕ} (hN : 1 ≤ N) (hk : k ≤ N) : dctV N (N - k) = Complex.I * (starRingEnd ℂ) (dctV N k) := by
  have h0 : (N : ℝ) ≠ 0 := by exact_mod_cast (by omega : N ≠ 0)
  rw [dctV_cis, dctV_cis, cis_conj, ← cis_half_pi, ← cis_add, Nat.cast_sub hk]
  congr 1
  field_simp
  ring

theorem dctV_conj_mul (N k : ℕ) : (starRingEnd ℂ) (dctV N k) * dctV N k = 1 := by
  rw [dctV_cis, cis_conj, cis_neg_mul]

theorem dctP_herm {N : ℕ} (hN : 1 ≤ N) (X : ℕ → ℝ) : Spec.Hermitian N (dctP N X) := by
  intro k hk
  rcases Nat.eq_zero_or_pos k with rfl | h0
  · rw [Nat.sub_zero, Nat.mod_self, dctP, if_pos rfl, Complex.conj_ofReal]
  · rw [Nat.mod_eq_of_lt (by omega), dctP, dctP, if_neg (by omega), if_neg (by omega), dctV_sub hN hk.le, map_mul, map_sub, map_mul,
      Complex.conj_I, Complex.conj_ofReal, Complex.conj_ofReal, show N - (N - k) = k by omega]
    linear_combination (-(starRingEnd ℂ) (dctV N k) * X k) * Complex.I_mul_I

/-- rotating back -/
theorem rot_P {N : ℕ} (X : ℕ → ℝ) {k : ℕ} : ((starRingEnd ℂ) (dctV N k) * dctP N X k).re = X k := by
  unfold dctP
  split
  · rename_i h; subst h
    rw [dctV_cis]
    simp [cis]
  · rw [← mul_assoc, dctV_conj_mul, one_mul]
    simp

/-- the inverse DFT of the rotated vector is the DCT-III at the gathered positions -/
theorem idft_P {N : ℕ} (hN : 1 ≤ N) (X : ℕ → ℝ) (q : ℕ) :
    Spec.idft N (dctP N X) q =
      ((∑ k ∈ range N, (if k = 0 then 1 else 2) * X k * Real.cos (k * (Real.pi / (2 * N)) * (4 * (q : ℝ) + 1)) : ℝ) : ℂ) := by
  have h0 : (N : ℝ) ≠ 0 := by exact_mod_cast (by omega : N ≠ 0)
  obtain ⟨n, rfl⟩ : ∃ n, N = n + 1 := ⟨N - 1, by omega⟩
  rw [Spec.idft_eq, xdft_sum, sum_range_succ', sum_range_succ']
  set θ : ℝ := Real.pi / (2 * ((n + 1 : ℕ) : ℝ)) * (4 * (q : ℝ) + 1) with hθ
  have hN1 : cis (((n + 1 : ℕ) : ℝ) * θ) = Complex.I := by
    have : ((n + 1 : ℕ) : ℝ) * θ = Real.pi / 2 + q * (2 * Real.pi) := by rw [hθ]; field_simp; ring
    rw [this, cis_add, cis_nat, mul_one, cis_half_pi]
  -- one summand
  have e : ∀ k, dctP (n + 1) X (k + 1) * om true (n + 1) ^ ((k + 1) * q) =
      (X (k + 1) : ℂ) * cis (((k + 1 : ℕ) : ℝ) * θ) - Complex.I * (X (n + 1 - (k + 1)) : ℂ) * cis (((k + 1 : ℕ) : ℝ) * θ) := by
    intro k
    rw [dctP, if_neg (by omega), om_cis, dctV_cis]
    have : ((k + 1 : ℕ) : ℝ) * θ = ((k + 1 : ℕ) : ℝ) * (Real.pi / (2 * ((n + 1 : ℕ) : ℝ))) +
        (((k + 1) * q : ℕ) : ℝ) * (2 * Real.pi / ((n + 1 : ℕ) : ℝ)) := by rw [hθ]; push_cast; field_simp; ring
    rw [this, cis_add]
    ring
  rw [sum_congr rfl fun k _ => e k, sum_sub_distrib]
  have hrefl : ∑ k ∈ range n, Complex.I * (X (n + 1 - (k + 1)) : ℂ) * cis (((k + 1 : ℕ) : ℝ) * θ) =
      ∑ k ∈ range n, -((X (k + 1) : ℂ) * cis (-(((k + 1 : ℕ) : ℝ) * θ))) := by
    rw [← sum_range_reflect]
    refine sum_congr rfl fun k hk => ?_
    have hk := mem_range.1 hk
    have e1 : n + 1 - (n - 1 - k + 1) = k + 1 := by omega
    have e2 : ((n - 1 - k + 1 : ℕ) : ℝ) * θ = ((n + 1 : ℕ) : ℝ) * θ + -(((k + 1 : ℕ) : ℝ) * θ) := by
      rw [show n - 1 - k + 1 = n + 1 - (k + 1) by omega, Nat.cast_sub (by omega)]; ring
    rw [e1, e2, cis_add, hN1]
    linear_combination (X (k + 1) * cis (-(((k + 1 : ℕ) : ℝ) * θ))) * Complex.I_mul_I
  rw [hrefl, sum_neg_distrib, sub_neg_eq_add, ← sum_add_distrib]
  rw [Complex.ofReal_add, Complex.ofReal_sum]
  congr 1
  · refine sum_congr rfl fun k _ => ?_
    have hk : ¬ (k + 1 = 0) := by omega
    have h2 := Complex.add_conj (cis (((k + 1 : ℕ) : ℝ) * θ))
    rw [cis_conj, cis_re] at h2
    rw [← mul_add, h2, if_neg hk]
    have h3 : ((k + 1 : ℕ) : ℝ) * θ = ((k + 1 : ℕ) : ℝ) * (Real.pi / (2 * ((n + 1 : ℕ) : ℝ))) * (4 * (q : ℝ) + 1) := by
      rw [hθ]; ring
    rw [h3, ← Complex.ofReal_mul]
    congr 1
    ring
  · simp [dctP]

theorem dct3_at_even (N : ℕ) (X : ℕ → ℝ) (q : ℕ) :
    (∑ k ∈ range N, (if k = 0 then 1 else 2) * X k * Real.cos (k * (Real.pi / (2 * N)) * (4 * (q : ℝ) + 1)) : ℝ) =
      Spec.dct3 N X (2 * q) := by
  unfold Spec.dct3
  refine sum_congr rfl fun k _ => ?_
  congr 2
  push_cast; ring

theorem dct3_at_odd {m q : ℕ} (hm : 0 < m) (hq : q < m) (X : ℕ → ℝ) :
    (∑ k ∈ range (2 * m), (if k = 0 then 1 else 2) * X k *
        Real.cos (k * (Real.pi / (2 * ((2 * m : ℕ) : ℝ))) * (4 * ((2 * m - 1 - q : ℕ) : ℝ) + 1)) : ℝ) =
      Spec.dct3 (2 * m) X (2 * q + 1) := by
  unfold Spec.dct3
  refine sum_congr rfl fun k _ => ?_
  rw [cos_mirror hm hq]
  congr 2
  push_cast; ring

/-! ### the transforms -/

theorem dctOut_fwd (thr : Thr) {e : DctEntry} (he : e.isInv = false) {n : ℕ} (hn : RealLen n) (r : ℕ → ℝ) {t : ℕ} (ht : t < n) :
    dctOut ℂ thr e n (Spec.ofReal r) t = scC n e.mode * (Spec.dct n r t : ℂ) := by
  unfold dctOut
  rcases hn with rfl | ⟨m, rfl, hm, hm31⟩
  · have : t = 0 := by omega
    subst this
    rw [if_pos rfl]
    have : scC 1 e.mode = 1 := by cases e <;> simp [scC, DctEntry.mode, DctEntry.real, Entry.mode]
    rw [this]
    simp [Spec.dct, Spec.ofReal]
  · have h2 := hm.two
    have hri : e.real.isInv = false := by rw [DctEntry.real_isInv, he]
    rw [if_neg (by omega : ¬ (2 * m = 1)), he, if_neg (by simp), show 2 * m / 2 = m by omega, dctTw_C,
      dctTab_C (by omega) (by omega), rfftOut_fwd thr hri (Or.inr ⟨m, rfl, hm, hm31⟩) _ ht]
    have hg : (fun j => ((dctGath m (Spec.ofReal r) j).re : ℂ)) = Spec.ofReal (gathR m r) := by
      funext j; rw [gath_ofReal]; rfl
    rw [hg, ← rot_dft (by omega)]
    have hc : ((scC (2 * m) e.mode).re : ℂ) = scC (2 * m) e.mode :=
      Complex.conj_eq_iff_re.1 (scC_conj _ _)
    show ((( _ * (scC (2 * m) e.mode * _)).re : ℝ) : ℂ) = _
    rw [← hc, mul_left_comm, Complex.re_ofReal_mul, Complex.ofReal_mul]

theorem dctOut_inv (thr : Thr) {e : DctEntry} (he : e.isInv = true) {n : ℕ} (hn : RealLen n) (X : ℕ → ℝ) {t : ℕ} (ht : t < n) :
    dctOut ℂ thr e n (Spec.ofReal X) t = scC n e.mode * (Spec.dct3 n X t : ℂ) := by
  unfold dctOut
  rcases hn with rfl | ⟨m, rfl, hm, hm31⟩
  · have : t = 0 := by omega
    subst this
    rw [if_pos rfl]
    have : scC 1 e.mode = 1 := by cases e <;> simp [scC, DctEntry.mode, DctEntry.real, Entry.mode]
    rw [this]
    simp [Spec.dct3, Spec.ofReal]
  · have h2 := hm.two
    have hri : e.real.isInv = true := by rw [DctEntry.real_isInv, he]
    have hP : ∀ k < 2 * m, dctPreV ℂ (2 * m) (dctTab ℂ (2 * m)) (Spec.ofReal X) k = dctP (2 * m) X k :=
      fun k hk => dctPreV_C (by omega) X hk
    have hH : Spec.Hermitian (2 * m) (dctPreV ℂ (2 * m) (dctTab ℂ (2 * m)) (Spec.ofReal X)) := by
      intro k hk
      rw [hP _ (Nat.mod_lt _ (by omega)), hP k hk]
      exact dctP_herm (by omega) X k hk
    have key : ∀ q < 2 * m, rfftOut ℂ thr e.real (2 * m) (dctPreV ℂ (2 * m) (dctTab ℂ (2 * m)) (Spec.ofReal X)) q =
        scC (2 * m) e.mode * Spec.idft (2 * m) (dctP (2 * m) X) q := by
      intro q hq
      rw [rfftOut_inv thr hri (Or.inr ⟨m, rfl, hm, hm31⟩) hH hq, Spec.idft_eq, xdft_congr true hP]
      rfl
    rw [if_neg (by omega : ¬ (2 * m = 1)), he, if_pos rfl, show 2 * m / 2 = m by omega, dctScat]
    split
    · rename_i h
      rw [key _ (by omega), idft_P (by omega), dct3_at_even, show 2 * (t / 2) = t by omega]
    · rename_i h
      rw [key _ (by omega), idft_P (by omega), dct3_at_odd (by omega) (by omega), show 2 * (t / 2) + 1 = t by omega]

/-! ### inversion -/

/-- the forward transform's spectrum, recovered from the DCT -/
theorem dctP_dct {m : ℕ} (hm : 0 < m) (r : ℕ → ℝ) {k : ℕ} (hk : k < 2 * m) :
    dctP (2 * m) (Spec.dct (2 * m) r) k = Spec.dft (2 * m) (Spec.ofReal (gathR m r)) k := by
  set Z := Spec.dft (2 * m) (Spec.ofReal (gathR m r)) with hZ
  have hrot := rot_dft hm r
  rw [← hZ] at hrot
  unfold dctP
  split
  · rename_i h; subst h
    rw [← hrot 0]
    have hz : (starRingEnd ℂ) (dctV (2 * m) 0) = 1 := by rw [dctV_cis]; simp [cis_zero]
    rw [hz, one_mul]
    have hH := hermitian_dft (n := 2 * m) 1 (map_one _) (gathR m r) (by omega)
    have := (hermitian_facts hH (by omega)).1
    rw [one_mul, ← hZ] at this
    exact Complex.ext rfl this.symm
  · rename_i h
    have hH := hermitian_dft (n := 2 * m) 1 (map_one _) (gathR m r) (by omega)
    have hcj := (hermitian_facts hH (by omega)).2 k (by omega) hk
    simp only [one_mul] at hcj
    rw [← hZ] at hcj
    set A := (starRingEnd ℂ) (dctV (2 * m) k) * Z k with hA
    have h2 : Spec.dct (2 * m) r (2 * m - k) = -A.im := by
      rw [← hrot, hcj, dctV_sub (by omega) hk.le, map_mul, Complex.conj_I, Complex.conj_conj]
      have : -Complex.I * dctV (2 * m) k * (starRingEnd ℂ) (Z k) = -(Complex.I * (starRingEnd ℂ) A) := by
        rw [hA, map_mul, Complex.conj_conj]; ring
      rw [this]
      simp
    have h1 : Spec.dct (2 * m) r k = A.re := (hrot k).symm
    rw [h1, h2]
    have : ((A.re : ℂ) - Complex.I * ((-A.im : ℝ) : ℂ)) = A := by
      push_cast
      linear_combination Complex.re_add_im A
    rw [this, hA, ← mul_assoc, mul_comm (dctV _ _), dctV_conj_mul, one_mul]

theorem dct3_dct {n : ℕ} (hn : n = 1 ∨ ∃ m, 0 < m ∧ n = 2 * m) (r : ℕ → ℝ) {t : ℕ} (ht : t < n) :
    Spec.dct3 n (Spec.dct n r) t = n * r t := by
  rcases hn with rfl | ⟨m, hm, rfl⟩
  · have : t = 0 := by omega
    subst this
    simp [Spec.dct3, Spec.dct]
  · have key : ∀ q < 2 * m, Spec.idft (2 * m) (dctP (2 * m) (Spec.dct (2 * m) r)) q = (2 * m : ℕ) * (gathR m r q : ℂ) := by
      intro q hq
      have := xdft_inv false (Spec.ofReal (gathR m r)) hq
      rw [Bool.not_false] at this
      rw [Spec.idft_eq, xdft_congr true (fun k hk => dctP_dct hm r hk), Spec.dft_eq, this]
      rfl
    rcases Nat.mod_two_eq_zero_or_one t with h | h
    · have k := key (t / 2) (by omega)
      rw [idft_P (by omega), dct3_at_even, show 2 * (t / 2) = t by omega, gathR, if_pos (by omega),
        show 2 * (t / 2) = t by omega] at k
      exact_mod_cast k
    · have k := key (2 * m - 1 - t / 2) (by omega)
      rw [idft_P (by omega), dct3_at_odd (by omega) (by omega), show 2 * (t / 2) + 1 = t by omega, gathR, if_neg (by omega),
        show 2 * m - 1 - (2 * m - 1 - t / 2) = t / 2 by omega, show 2 * (t / 2) + 1 = t by omega] at k
      exact_mod_cast k

theorem dct_dct3 {n : ℕ} (hn : n = 1 ∨ ∃ m, 0 < m ∧ n = 2 * m) (X : ℕ → ℝ) {t : ℕ} (ht : t < n) :
    Spec.dct n (Spec.dct3 n X) t = n * X t := by
  rcases hn with rfl | ⟨m, hm, rfl⟩
  · have : t = 0 := by omega
    subst this
    simp [Spec.dct3, Spec.dct]
  · rw [← rot_dft hm]
    have hg : ∀ q < 2 * m, Spec.ofReal (gathR m (Spec.dct3 (2 * m) X)) q = Spec.idft (2 * m) (dctP (2 * m) X) q := by
      intro q hq
      rw [idft_P (by omega)]
      unfold Spec.ofReal gathR
      split
      · rw [dct3_at_even]
      · rename_i h
        rw [← dct3_at_odd hm (by omega), show 2 * m - 1 - (2 * m - 1 - q) = q by omega]
    have := xdft_inv true (dctP (2 * m) X) ht
    rw [Bool.not_true] at this
    rw [Spec.dft_eq, xdft_congr false hg, Spec.idft_eq, this, mul_left_comm, ← Complex.ofReal_natCast, Complex.re_ofReal_mul, rot_P]

end OTFFT
