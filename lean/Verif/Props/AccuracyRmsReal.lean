/-
C62: relative accuracy of the real and cosine transforms in the root-mean-square sense, in IEEE double precision.
-/
import Verif.Proof.L2Real
import Verif.Props.AccuracyReal
import Verif.Props.AccuracyRms
import Verif.Props.Mirror

namespace OTFFT.Props

open Finset

section
variable {F : Type} [FArith F] [Inhabited F] {val : F → ℝ} {fin : F → Prop} {n k : ℕ} {A φ B : ℝ} {thr : Thr}

/-! ### the transforms on vectors, entry point by entry point -/

theorem sqrt_scR_one (e : ScaleMode) : √((1 : ℕ) : ℝ) * scR 1 e = 1 := by rw [ApReal.scR_one]; simp

theorem errWeight2_half_one : errWeight2 (1 / 2) = 0 := by simp [errWeight2]

/-- real parts, exactly -/
theorem re_vap (hF : Binary64 F val fin) (i : Target) {v : ℕ → ℂ} {v' : ℕ → Xmm F} (hv : (dblFlt hF).VAp (range n) v v' φ B k)
    (hφ : 1 / 2 ^ 1010 ≤ φ) (hG : 2 * B ≤ 2 ^ 1019) (hk : k ≤ 2 ^ 52) :
    letI := i.arith F
    (dblFlt hF).VAp (range n) (fun t => ofD ℂ (CArith.re (v t))) (fun t => ofD (Xmm F) (CArith.re (v' t))) φ B k := by
  letI := i.arith F
  have L := (dblFlt hF).apReal i
  have key : ∀ t ∈ range n, cfin fin (ofD (Xmm F) (CArith.re (v' t))) ∧
      (dblFlt hF).cv (ofD (Xmm F) (CArith.re (v' t))) = ofD ℂ (CArith.re ((dblFlt hF).cv (v' t))) := by
    intro t ht
    have := L.re (Flt.VAp.ap_self (c := dblFlt hF) (hv.fin t ht) hφ)
    obtain ⟨f, -, e⟩ := this.2 (le_trans (hv.entry_le hk le_rfl ht) hG) (Nat.zero_le _)
    refine ⟨f, ?_⟩
    rw [pow_zero, sub_self, mul_zero] at e
    exact sub_eq_zero.1 (norm_le_zero_iff.1 e)
  have := Flt.VAp.exact (lam := 1) (S := fun v t => ofD ℂ (CArith.re (v t))) (S' := fun v t => ofD (Xmm F) (CArith.re (v t))) (Bs := range n)
    hv zero_le_one (fun t ht => (key t ht).1) (fun t ht => (key t ht).2)
    (by
      rw [one_mul, nrm_congr (w := fun t => (((dblFlt hF).cv (v' t) - v t).re : ℂ)) fun t _ => by
        rw [ofD_C, ofD_C, Complex.sub_re, Complex.ofReal_sub]; rfl]
      exact re_nrm fun t => (dblFlt hF).cv (v' t) - v t)
    (by
      rw [one_mul, nrm_congr (w := fun t => ((v t).re : ℂ)) fun t _ => by rw [ofD_C]; rfl]
      exact re_nrm v)
  rwa [one_mul, one_mul] at this

theorem big_K : 1000 ≤ 2 ^ 52 := by norm_num

theorem rfft_fwd_vap (hF : Binary64 F val fin) (i : Target) (hn : RealLen n) {e : Entry} (he : e.isInv = false) {v : ℕ → ℂ}
    {v' : ℕ → Xmm F} (hv : (dblFlt hF).VAp (range n) v v' φ B k) (hφ : 2 ^ 17 * (1 / 2 ^ 1010) ≤ scR n e.mode * φ)
    (hG : 18 * (√n * B) ≤ 2 ^ 1019) (hk : k + errWeight2 (n / 2) + 336 ≤ 2 ^ 52) :
    letI := i.arith F
    (dblFlt hF).VAp (range n) (rfftOut ℂ thr e n v) (rfftOut (Xmm F) thr e n v') (√n * scR n e.mode * φ) (√n * scR n e.mode * B)
      (k + errWeight2 (n / 2) + 336) := by
  letI := i.arith F
  have hm0 := (dblFlt hF).m0_pos
  have hB := hv.B0
  rcases hn with rfl | ⟨m, rfl, hm, h31⟩
  · have h1 : √((1 : ℕ) : ℝ) = 1 := by simp
    rw [sqrt_scR_one, one_mul, one_mul]
    rw [ApReal.scR_one, one_mul] at hφ
    rw [h1] at hG
    have hφ' : 1 / 2 ^ 1010 ≤ φ := by
      have : (0:ℝ) < 1 / 2 ^ 1010 := by positivity
      generalize (1 : ℝ) / 2 ^ 1010 = a at *
      linarith
    have hG' : 2 * B ≤ 2 ^ 1019 := by
      generalize (2 : ℝ) ^ 1019 = a at *
      linarith
    refine ((re_vap hF i hv hφ' hG' (by omega)).congr ?_ ?_).mono hv.phi0 le_rfl le_rfl (by omega)
    · intro t ht
      have : t = 0 := by have := mem_range.1 ht; omega
      subst this
      rfl
    · intro t ht
      have : t = 0 := by have := mem_range.1 ht; omega
      subst this
      rfl
  · have hm2 := hm.two
    rw [show 2 * m / 2 = m by omega] at hk ⊢
    refine ((hv.rfftFwd (thr := thr) (mode := e.mode) ((dblFlt hF).apReal i) big_K hm2 (by omega) ?_ ?_ hk).congr ?_ ?_)
    · have : 0 < (dblFlt hF).m0 := hm0
      have h : 2 ^ 17 * (dblFlt hF).m0 ≤ scR (2 * m) e.mode * φ := hφ
      linarith
    · show _ ≤ (2:ℝ) ^ 1019
      generalize (2 : ℝ) ^ 1019 = a at *
      have : 0 ≤ √((2 * m : ℕ) : ℝ) * B := by positivity
      linarith
    · intro t _
      rw [rfftOut, if_neg (by omega), he, show 2 * m / 2 = m by omega]; rfl
    · intro t _
      rw [rfftOut, if_neg (by omega), he, show 2 * m / 2 = m by omega]; rfl

theorem rfft_inv_vap (hF : Binary64 F val fin) (i : Target) (hn : RealLen n) {e : Entry} (he : e.isInv = true) {v : ℕ → ℂ}
    {v' : ℕ → Xmm F} (hX : Herm n v) (hX' : Herm n fun t => cval val (v' t))
    (hv : (dblFlt hF).VAp (range n) v v' φ B k) (hφ : 2 ^ 17 * (1 / 2 ^ 1010) ≤ scR n e.mode * φ)
    (hG : 18 * (√n * B) ≤ 2 ^ 1019) (hk : k + errWeight2 (n / 2) + 336 ≤ 2 ^ 52) :
    letI := i.arith F
    (dblFlt hF).VAp (range n) (rfftOut ℂ thr e n v) (rfftOut (Xmm F) thr e n v') (√n * scR n e.mode * φ) (√n * scR n e.mode * B)
      (k + errWeight2 (n / 2) + 336) := by
  letI := i.arith F
  have hm0 := (dblFlt hF).m0_pos
  have hB := hv.B0
  rcases hn with rfl | ⟨m, rfl, hm, h31⟩
  · have h1 : √((1 : ℕ) : ℝ) = 1 := by simp
    rw [sqrt_scR_one, one_mul, one_mul]
    rw [ApReal.scR_one, one_mul] at hφ
    rw [h1] at hG
    have hφ' : 1 / 2 ^ 1010 ≤ φ := by
      have : (0:ℝ) < 1 / 2 ^ 1010 := by positivity
      generalize (1 : ℝ) / 2 ^ 1010 = a at *
      linarith
    have hG' : 2 * B ≤ 2 ^ 1019 := by
      generalize (2 : ℝ) ^ 1019 = a at *
      linarith
    refine ((re_vap hF i hv hφ' hG' (by omega)).congr ?_ ?_).mono hv.phi0 le_rfl le_rfl (by omega)
    · intro t ht
      have : t = 0 := by have := mem_range.1 ht; omega
      subst this
      rfl
    · intro t ht
      have : t = 0 := by have := mem_range.1 ht; omega
      subst this
      rfl
  · have hm2 := hm.two
    rw [show 2 * m / 2 = m by omega] at hk ⊢
    refine ((hv.rfftInv (thr := thr) (mode := e.mode) ((dblFlt hF).apReal i) big_K hm2 (by omega) hX hX' hφ ?_ hk).congr ?_ ?_)
    · show _ ≤ (2:ℝ) ^ 1019
      generalize (2 : ℝ) ^ 1019 = a at *
      have : 0 ≤ √((2 * m : ℕ) : ℝ) * B := by positivity
      linarith
    · intro t _
      rw [rfftOut, if_neg (by omega), he, show 2 * m / 2 = m by omega]; rfl
    · intro t _
      rw [rfftOut, if_neg (by omega), he, show 2 * m / 2 = m by omega]; rfl

/-- amplification of the cosine transforms: `√n` for the DCT-II, `√(2n)` for the DCT-III -/
noncomputable def dctGain (e : DctEntry) : ℝ := if e.isInv then √2 else 1

theorem dctGain_bounds (e : DctEntry) : 1 ≤ dctGain e ∧ dctGain e ≤ 1.42 := by
  unfold dctGain
  obtain ⟨l, u⟩ := Flt.sqrt2_bounds
  split
  · exact ⟨by linarith, by linarith⟩
  · norm_num

theorem gain_le {x g : ℝ} (h : x + φ ≤ B) (hx : 0 ≤ x) (hg : 1 ≤ g) : 0 ≤ g ∧ x + g * φ ≤ g * B ∧ (0 ≤ B → B ≤ g * B) :=
  ⟨by linarith, by nlinarith, fun _ => by nlinarith⟩

theorem dct_vap (hF : Binary64 F val fin) (i : Target) (hn : RealLen n) (h30 : n < 2 ^ 30) (e : DctEntry) {v : ℕ → ℂ}
    {v' : ℕ → Xmm F} (hv : (dblFlt hF).VAp (range n) v v' φ B k) (hφ : 2 ^ 17 * (1 / 2 ^ 1010) ≤ scR n e.mode * φ)
    (hG : 18 * (√n * B) ≤ 2 ^ 1019) (hk : k + errWeight2 (n / 2) + 1053 ≤ 2 ^ 52) :
    letI := i.arith F
    (dblFlt hF).VAp (range n) (dctOut ℂ thr e n v) (dctOut (Xmm F) thr e n v') (dctGain e * (√n * scR n e.mode) * φ)
      (dctGain e * (√n * scR n e.mode) * B) (k + errWeight2 (n / 2) + if e.isInv then 1053 else 369) := by
  letI := i.arith F
  have hm0 := (dblFlt hF).m0_pos
  have hB := hv.B0
  have hφ0 := hv.phi0
  rcases hn with rfl | ⟨m, rfl, hm, h31⟩
  · rw [sqrt_scR_one, mul_one]
    have hg := (dctGain_bounds e).1
    have e1 : ∀ t ∈ range 1, dctOut ℂ thr e 1 v t = v t := fun t _ => by rw [dctOut, if_pos rfl]
    have e2 : ∀ t ∈ range 1, dctOut (Xmm F) thr e 1 v' t = v' t := fun t _ => by rw [dctOut, if_pos rfl]
    have hv' := hv.congr e1 e2
    have hle := hv'.le
    have h0 := nrm_nonneg (A := range 1) (v := dctOut ℂ thr e 1 v)
    obtain ⟨g0, g1, g2⟩ := gain_le hle h0 hg
    refine ⟨hv'.fin, mul_nonneg g0 hφ0, g1, le_trans hv'.err ?_⟩
    have p1 := (dblFlt hF).one_le_pow k
    have p2 := (dblFlt hF).pow_mono (show k ≤ k + errWeight2 (1 / 2) + if e.isInv then 1053 else 369 by omega)
    exact mul_le_mul (g2 hB) (sub_le_sub_right p2 1) (sub_nonneg.2 p1) (mul_nonneg g0 hB)
  · have hm2 := hm.two
    have hm0' : 0 < (dblFlt hF).m0 := hm0
    have hφ' : 2 ^ 17 * (dblFlt hF).m0 ≤ scR (2 * m) e.mode * φ := hφ
    have hG' : 18 * (√(2 * m : ℕ) * B) ≤ (dblFlt hF).G := hG
    have h0 : 0 ≤ √((2 * m : ℕ) : ℝ) * B := by positivity
    rw [show 2 * m / 2 = m by omega] at hk ⊢
    have er : ∀ (D : Type) [CArith F D] (u : ℕ → D), rfftOut D thr e.real (2 * m) u =
        if e.isInv then rfftInvOut D thr e.mode m u else rfftFwdOut D thr e.mode m u := by
      intro D _ u
      unfold rfftOut
      rw [if_neg (by omega : ¬ 2 * m = 1), show 2 * m / 2 = m by omega, DctEntry.real_isInv]
      rfl
    have er' : ∀ u : ℕ → ℂ, rfftOut ℂ thr e.real (2 * m) u =
        if e.isInv then rfftInvOut ℂ thr e.mode m u else rfftFwdOut ℂ thr e.mode m u := by
      intro u
      unfold rfftOut
      rw [if_neg (by omega : ¬ 2 * m = 1), show 2 * m / 2 = m by omega, DctEntry.real_isInv]
      rfl
    unfold dctOut dctGain
    rw [if_neg (by omega : ¬ 2 * m = 1), if_neg (by omega : ¬ 2 * m = 1), show 2 * m / 2 = m by omega, er, er', er, er']
    cases hi : e.isInv with
    | true =>
      exact hv.dctInv (thr := thr) (mode := e.mode) ((dblFlt hF).apReal i) big_K hm2 (by omega) (by linarith) hG' hk
    | false =>
      have := hv.dctFwd (thr := thr) (mode := e.mode) ((dblFlt hF).apReal i) big_K hm2 (by omega) (by linarith) (by linarith)
        (by show k + errWeight2 m + 369 ≤ 2 ^ 52; omega)
      simp only [Bool.false_eq_true, if_false, one_mul]
      exact this

/-! ### constants -/

theorem half_weight2 (hn : RealLen n) : errWeight2 (n / 2) + errWeight2 (n / 2) + 3000 ≤ 2 ^ 40 := by
  rcases hn with rfl | ⟨m, rfl, hm, -⟩
  · rw [errWeight2_half_one]; norm_num
  · rw [show 2 * m / 2 = m by omega]
    have := errWeight2_le m hm.small
    have := hm.int
    omega

/-- data are computed versions of themselves -/
theorem vap_in (hF : Binary64 F val fin) {v : ℕ → Xmm F} (hv : ∀ t < n, cfin fin (v t)) (hA : 0 ≤ A)
    (hvA : norm2 n (fun t => cval val (v t)) ≤ A) :
    (dblFlt hF).VAp (range n) (fun t => cval val (v t)) v (A / 2) (3 / 2 * A) 0 := by
  refine ⟨fun t ht => hv t (mem_range.1 ht), by linarith, ?_, ?_⟩
  · rw [norm2_eq] at hvA
    linarith
  · rw [pow_zero, sub_self, mul_zero, nrm_congr (w := fun _ => 0) fun t _ => by exact sub_self _, nrm_zero]

theorem phi_ok {s : ℝ} (hs : 1 / 2 ^ 31 ≤ s) (hA : 1 / 2 ^ 960 ≤ A) : (2:ℝ) ^ 17 * (1 / 2 ^ 1010) ≤ s * (A / 2) := by
  have h : (1:ℝ) / 2 ^ 31 * ((1 / 2 ^ 960) / 2) ≤ s * (A / 2) :=
    mul_le_mul hs (by linarith) (by positivity) (le_trans (by positivity) hs)
  refine le_trans ?_ h
  have e : (2:ℝ) ^ 1010 = 2 ^ 960 * 2 ^ 50 := by rw [← pow_add]
  rw [e]
  have h0 : (0:ℝ) < 2 ^ 960 := by positivity
  clear e h hA
  generalize (2:ℝ) ^ 960 = a at *
  rw [div_div, div_mul_div_comm, one_mul, mul_one_div, div_le_div_iff₀ (by positivity) (by positivity)]
  nlinarith

theorem big_ok {X : ℝ} (hX : X ≤ 2 ^ 1014) {c : ℝ} (hc : c ≤ 32) (h0 : 0 ≤ X) : c * X ≤ 2 ^ 1019 := by
  have e : (2:ℝ) ^ 1019 = 2 ^ 1014 * 32 := by rw [show 1019 = 1014 + 5 from rfl, pow_add]; norm_num
  rw [e]
  clear e
  generalize (2:ℝ) ^ 1014 = a at *
  nlinarith

/-- from the relation to the bound -/
theorem vap_out (hF : Binary64 F val fin) {v : ℕ → ℂ} {v' : ℕ → Xmm F} {lam : ℝ} (hl : 0 ≤ lam) (hA : 0 ≤ A)
    (h : (dblFlt hF).VAp (range n) v v' φ (lam * (3 / 2 * A)) k) (hk : k ≤ 2 ^ 40) :
    (∀ t < n, cfin fin (v' t)) ∧ norm2 n (fun t => cval val (v' t) - v t) ≤ k / 2 ^ 52 * (lam * A) := by
  refine ⟨fun t ht => h.fin t (mem_range.2 ht), le_trans h.err ?_⟩
  have := pow_slack hF hk (le_refl (3 / 2 * A)) hA
  have := mul_le_mul_of_nonneg_left this hl
  linarith

theorem factor_eq (e : Entry) : scR n e.mode = e.factor n := by cases e <;> rfl

theorem dfactor_eq (e : DctEntry) : scR n e.mode = e.factor n := by cases e <;> rfl

theorem isInv_fwd {e : Entry} (he : e ∈ [Entry.fwd, .fwd0, .fwdu, .fwdn]) : e.isInv = false := by
  simp only [List.mem_cons, List.not_mem_nil, or_false] at he
  rcases he with rfl | rfl | rfl | rfl <;> rfl

theorem isInv_inv {e : Entry} (he : e ∈ [Entry.inv, .inv0, .invu, .invn]) : e.isInv = true := by
  simp only [List.mem_cons, List.not_mem_nil, or_false] at he
  rcases he with rfl | rfl | rfl | rfl <;> rfl

theorem cval_doubles (hF : Binary64 F val fin) (d : ℕ → F) (t : ℕ) : cval val (doubles d t) = Spec.ofReal (fun j => val (d j)) t :=
  (dblFlt hF).cv_real (d t)

theorem doubles_fin (hF : Binary64 F val fin) {d : ℕ → F} (hd : ∀ t < n, fin (d t)) : ∀ t < n, cfin fin (doubles d t) :=
  fun t ht => ⟨hd t ht, (hF.ofNat 0 (by norm_num)).1⟩

variable {w : World (Xmm F)} {x y z : Ptr}

/-! ### the theorems -/

theorem rfft_fwd_err (hF : Binary64 F val fin) (i : Target) (thr : Thr) (hn : RealLen n) {d : ℕ → F}
    (hA : 1 / 2 ^ 960 ≤ A) (hM : √n * A ≤ 2 ^ 1014)
    (hd : ∀ t < n, fin (d t)) (hdA : norm2 n (Spec.ofReal fun j => val (d j)) ≤ A) (e : Entry)
    (he : e ∈ [Entry.fwd, .fwd0, .fwdu, .fwdn]) :
    letI := i.arith F
    (∀ t < n, cfin fin (rfftOut (Xmm F) thr e n (doubles d) t)) ∧
      norm2 n (fun t => cval val (rfftOut (Xmm F) thr e n (doubles d) t) - e.exact n (Spec.ofReal fun j => val (d j)) t) ≤
        (errWeight2 (n / 2) + 336) / 2 ^ 52 * (e.factor n * √n * A) := by
  letI := i.arith F
  have hi := isInv_fwd he
  have hpos := hn.pos
  have h31 := RealLen.le31 hn
  have hA0 : 0 ≤ A := le_trans (by positivity) hA
  have hs := ApLaws.scR_range n e.mode hpos h31
  have ein : (fun t => cval val (doubles d t)) = Spec.ofReal fun j => val (d j) := funext (cval_doubles hF d)
  have hin := vap_in hF (n := n) (doubles_fin hF hd) hA0 (by rw [ein]; exact hdA)
  rw [ein] at hin
  have hw := half_weight2 hn
  have h := rfft_fwd_vap (thr := thr) hF i hn hi hin (phi_ok hs.1 hA)
    (by
      have : 18 * (√(n:ℝ) * (3 / 2 * A)) = 27 * (√n * A) := by ring
      rw [this]
      exact big_ok hM (by norm_num) (by positivity)) (by omega)
  obtain ⟨f, b⟩ := vap_out hF (mul_nonneg (Real.sqrt_nonneg _) (le_trans (by positivity) hs.1)) hA0 h (by omega)
  refine ⟨f, ?_⟩
  rw [norm2_eq, nrm_congr (w := fun t => cval val (rfftOut (Xmm F) thr e n (doubles d) t) -
    rfftOut ℂ thr e n (Spec.ofReal fun j => val (d j)) t) fun t ht => by
      rw [rfftOut_fwd thr hi hn _ (mem_range.1 ht), scC_eq, factor_eq]
      congr 1
      cases e <;> first | rfl | cases hi]
  refine le_trans b (le_of_eq ?_)
  rw [factor_eq]
  push_cast
  ring

/-- C62: forward real transforms of finite data whose 2-norm is at most `A`. Every output is finite and the 2-norm of the error is at most
`(errWeight2(n/2) + 336) · 2⁻⁵² · (factor · √n · A)`, for every length, instruction set, threading threshold and normalisation. -/
theorem C62_real_forward (hF : Binary64 F val fin) (i : Target) (thr : Thr) (hn : RealLen n) (wf : w.WF) {d : ℕ → F}
    (hx : Arr w.heap x n (doubles d)) (hy : Alloc w.heap y n) (hxy : Sep x n y n) (hA : 1 / 2 ^ 960 ≤ A) (hM : √n * A ≤ 2 ^ 1014)
    (hd : ∀ t < n, fin (d t)) (hdA : norm2 n (Spec.ofReal fun j => val (d j)) ≤ A) (e : Entry)
    (he : e ∈ [Entry.fwd, .fwd0, .fwdu, .fwdn]) :
    letI := i.arith F
    ∃ out : ℕ → Xmm F, Computes (realFFT (Xmm F) thr) n [(e, x, y)] w y n out ∧ (∀ t < n, cfin fin (out t)) ∧
      norm2 n (fun t => cval val (out t) - e.exact n (Spec.ofReal fun j => val (d j)) t) ≤
        (errWeight2 (n / 2) + 336) / 2 ^ 52 * (e.factor n * √n * A) := by
  letI := i.arith F
  have hi := isInv_fwd he
  have a : RealArgs w e n x y (doubles d) := ⟨wf, hn, by rw [rfftNeed, hi]; exact hx, hx.alloc, hy, hxy⟩
  exact ⟨_, ComputesIn.toComputes (RFFT.computes (thr := thr) a) (by rw [rfftDirty, hi]; exact le_refl _) (fun _ _ => rfl),
    rfft_fwd_err hF i thr hn hA hM hd hdA e he⟩

/-- the given half of a conjugate symmetric vector and its mirror image -/
def mirror (n : ℕ) (v : ℕ → Xmm F) (t : ℕ) : Xmm F := if t ≤ n / 2 then v t else ![v (n - t) 0, fneg (v (n - t) 1)]

theorem mirror_herm (hF : Binary64 F val fin) (hpos : 0 < n) {v : ℕ → Xmm F} {X : ℕ → ℂ} (hX : Spec.Hermitian n X)
    (hXv : ∀ t ≤ n / 2, X t = cval val (v t)) (hv : ∀ t ≤ n / 2, cfin fin (v t)) {t : ℕ} (ht : t < n) :
    cfin fin (mirror n v t) ∧ cval val (mirror n v t) = X t := by
  obtain ⟨-, hm⟩ := hermitian_facts hX hpos
  unfold mirror
  split
  · rename_i h
    exact ⟨hv t h, (hXv t h).symm⟩
  · rename_i h
    have f := hv (n - t) (by omega)
    have g := hF.neg _ f.2
    refine ⟨⟨f.1, g.1⟩, ?_⟩
    have h1 := hm (n - t) (by omega) (by omega)
    rw [show n - (n - t) = t by omega, hXv (n - t) (by omega)] at h1
    rw [h1]
    exact Complex.ext rfl g.2

theorem rfft_inv_err (hF : Binary64 F val fin) (i : Target) (thr : Thr) (hn : RealLen n) {v : ℕ → Xmm F}
    (hA : 1 / 2 ^ 960 ≤ A) (hM : √n * A ≤ 2 ^ 1014) (hv : ∀ t ≤ n / 2, cfin fin (v t))
    {X : ℕ → ℂ} (hX : Spec.Hermitian n X) (hXv : ∀ t ≤ n / 2, X t = cval val (v t)) (hXA : norm2 n X ≤ A) (e : Entry)
    (he : e ∈ [Entry.inv, .inv0, .invu, .invn]) :
    letI := i.arith F
    (∀ t < n, fin (rfftOut (Xmm F) thr e n (mirror n v) t 0)) ∧
      norm2 n (fun t => (val (rfftOut (Xmm F) thr e n (mirror n v) t 0) : ℂ) - e.exact n X t) ≤
        (errWeight2 (n / 2) + 336) / 2 ^ 52 * (e.factor n * √n * A) := by
  letI := i.arith F
  have hi := isInv_inv he
  have hpos := hn.pos
  have h31 := RealLen.le31 hn
  have hA0 : 0 ≤ A := le_trans (by positivity) hA
  have hs := ApLaws.scR_range n e.mode hpos h31
  have hmir := fun t ht => mirror_herm hF hpos hX hXv hv (t := t) ht
  have hcell := fun t => rfft_cell i thr hi n (mirror n v) t
  have hin := vap_in hF (n := n) (v := mirror n v) (fun t ht => (hmir t ht).1) hA0 (by
    rw [norm2_eq, nrm_congr fun t ht => (hmir t (mem_range.1 ht)).2]
    exact hXA)
  have hin := hin.congr (w := X) (w' := mirror n v) (fun t ht => (hmir t (mem_range.1 ht)).2.symm) (fun _ _ => rfl)
  have hH := hermitian_facts hX hpos
  have hw := half_weight2 hn
  have h := rfft_inv_vap (thr := thr) hF i hn hi hH
    ⟨by show (cval val (mirror n v 0)).im = 0; rw [(hmir 0 hpos).2]; exact hH.1, fun k h0 hk => by
      show cval val (mirror n v (n - k)) = (starRingEnd ℂ) (cval val (mirror n v k))
      rw [(hmir _ (by omega)).2, (hmir k hk).2]
      exact hH.2 k h0 hk⟩ hin (phi_ok hs.1 hA)
    (by
      have : 18 * (√(n:ℝ) * (3 / 2 * A)) = 27 * (√n * A) := by ring
      rw [this]
      exact big_ok hM (by norm_num) (by positivity)) (by omega)
  obtain ⟨f, b⟩ := vap_out hF (mul_nonneg (Real.sqrt_nonneg _) (le_trans (by positivity) hs.1)) hA0 h (by omega)
  refine ⟨fun t ht => (f t ht).1, ?_⟩
  rw [norm2_eq, nrm_congr (w := fun t => cval val (rfftOut (Xmm F) thr e n (mirror n v) t) - rfftOut ℂ thr e n X t) fun t ht => by
      rw [rfftOut_inv thr hi hn hX (mem_range.1 ht), scC_eq, factor_eq, ← hcell t, cval_doubles hF]
      congr 1
      cases e <;> first | rfl | cases hi]
  refine le_trans b (le_of_eq ?_)
  rw [factor_eq]
  push_cast
  ring

theorem rfft_inv_computes (i : Target) (thr : Thr) (hn : RealLen n) (wf : w.WF) {v : ℕ → Xmm F}
    (hx : Arr w.heap x (n / 2 + 1) v) (hx' : Alloc w.heap x n) (hy : Alloc w.heap y n) (hxy : Sep x n y n) (e : Entry)
    (he : e ∈ [Entry.inv, .inv0, .invu, .invn]) :
    letI := i.arith F
    ComputesIn (realFFT (Xmm F) thr) n [(e, x, y)] w (Region x n) y n (doubles fun t => rfftOut (Xmm F) thr e n (mirror n v) t 0) := by
  letI := i.arith F
  have hi := isInv_inv he
  have a : RealArgs w e n x y (mirror n v) := ⟨wf, hn, by
    rw [rfftNeed, hi, if_pos rfl]
    exact hx.congr fun t ht => by unfold mirror; rw [if_pos (by omega)], hx', hy, hxy⟩
  have hcell := fun t => rfft_cell i thr hi n (mirror n v) t
  obtain ⟨h1, h2⟩ := RFFT.computes (thr := thr) a
  refine ⟨Act.wp_mono h1 ?_, h2⟩
  rintro ok w' ⟨a', b, c⟩
  refine ⟨a', fun hok => ⟨(b hok).1.congr fun t ht => (hcell t).symm, fun l hl => (b hok).2 l fun h => hl ?_⟩, c⟩
  rw [rfftDirty, hi] at h
  rcases h with h | h | h
  · exact Or.inl h
  · exact Or.inr h
  · exact Or.inl h
/-- C62: inverse real transforms of a conjugate symmetric vector `X` of which the first `n/2+1` entries are given. The same
bound. -/
theorem C62_real_inverse (hF : Binary64 F val fin) (i : Target) (thr : Thr) (hn : RealLen n) (wf : w.WF) {v : ℕ → Xmm F}
    (hx : Arr w.heap x (n / 2 + 1) v) (hx' : Alloc w.heap x n) (hy : Alloc w.heap y n) (hxy : Sep x n y n)
    (hA : 1 / 2 ^ 960 ≤ A) (hM : √n * A ≤ 2 ^ 1014) (hv : ∀ t ≤ n / 2, cfin fin (v t))
    {X : ℕ → ℂ} (hX : Spec.Hermitian n X) (hXv : ∀ t ≤ n / 2, X t = cval val (v t)) (hXA : norm2 n X ≤ A) (e : Entry)
    (he : e ∈ [Entry.inv, .inv0, .invu, .invn]) :
    letI := i.arith F
    ∃ out : ℕ → F, ComputesIn (realFFT (Xmm F) thr) n [(e, x, y)] w (Region x n) y n (doubles out) ∧ (∀ t < n, fin (out t)) ∧
      norm2 n (fun t => (val (out t) : ℂ) - e.exact n X t) ≤ (errWeight2 (n / 2) + 336) / 2 ^ 52 * (e.factor n * √n * A) := by
  letI := i.arith F
  exact ⟨_, rfft_inv_computes i thr hn wf hx hx' hy hxy e he, rfft_inv_err hF i thr hn hA hM hv hX hXv hXA e he⟩

/-- C62: so the relative error of the whole result of a forward transform is at most `(errWeight2(n/2) + 336) · 2⁻⁵²`, whatever the
input looks like. -/
theorem C62_real_relative (hF : Binary64 F val fin) (i : Target) (thr : Thr) (hn : RealLen n) (wf : w.WF) {d : ℕ → F}
    (hx : Arr w.heap x n (doubles d)) (hy : Alloc w.heap y n) (hxy : Sep x n y n) (hd : ∀ t < n, fin (d t))
    (hlo : 1 / 2 ^ 960 ≤ norm2 n (Spec.ofReal fun j => val (d j))) (hhi : √n * norm2 n (Spec.ofReal fun j => val (d j)) ≤ 2 ^ 1014)
    (e : Entry) (he : e ∈ [Entry.fwd, .fwd0, .fwdu, .fwdn]) :
    letI := i.arith F
    ∃ out : ℕ → Xmm F, Computes (realFFT (Xmm F) thr) n [(e, x, y)] w y n out ∧ (∀ t < n, cfin fin (out t)) ∧
      norm2 n (fun t => cval val (out t) - e.exact n (Spec.ofReal fun j => val (d j)) t) ≤
        (errWeight2 (n / 2) + 336) / 2 ^ 52 * norm2 n (e.exact n (Spec.ofReal fun j => val (d j))) := by
  letI := i.arith F
  rw [exact_norm2 hn.pos]
  exact C62_real_forward hF i thr hn wf hx hy hxy hlo hhi hd le_rfl e he

/-- C62: cosine transforms of finite data whose 2-norm is at most `A`: `(errWeight2(n/2) + 369) · 2⁻⁵² · (factor · √n · A)` for the DCT-II
and `(errWeight2(n/2) + 1053) · 2⁻⁵² · (factor · √2 · √n · A)` for the DCT-III, where `√n` and `√2 √n` are the largest factors
by which the exact transforms without normalisation can increase the 2-norm. -/
theorem C62_dct (hF : Binary64 F val fin) (i : Target) (thr : Thr) (hn : RealLen n) (h30 : n < 2 ^ 30) (wf : w.WF) {d : ℕ → F}
    (hx : Arr w.heap x n (doubles d)) (hA : 1 / 2 ^ 960 ≤ A) (hM : √n * A ≤ 2 ^ 1014)
    (hd : ∀ t < n, fin (d t)) (hdA : norm2 n (Spec.ofReal fun j => val (d j)) ≤ A) (e : DctEntry) :
    letI := i.arith F
    ∃ out : ℕ → F, Computes (realDCT (Xmm F) thr) n [(e, x)] w x n (doubles out) ∧ (∀ t < n, fin (out t)) ∧
      norm2 n (Spec.ofReal fun t => val (out t) - e.exact n (fun j => val (d j)) t) ≤
        if e ∈ [DctEntry.fwd, .fwd0, .fwdn] then (errWeight2 (n / 2) + 369) / 2 ^ 52 * (e.factor n * √n * A)
        else (errWeight2 (n / 2) + 1053) / 2 ^ 52 * (e.factor n * (√2 * √n) * A) := by
  letI := i.arith F
  have hpos := hn.pos
  have h31 := RealLen.le31 hn
  have hA0 : 0 ≤ A := le_trans (by positivity) hA
  have hs := ApLaws.scR_range n e.mode hpos h31
  have hcell := fun t => (dct_cell (F := F) i thr e n (v := doubles d) (t := t) ⟨_, rfl⟩).1
  refine ⟨fun t => dctOut (Xmm F) thr e n (doubles d) t 0,
    ComputesIn.toComputes (DCT.computes (thr := thr) wf hn h30 hx [e]) (Set.empty_subset _) (fun t _ => (hcell t).symm), ?_⟩
  have ein : (fun t => cval val (doubles d t)) = Spec.ofReal fun j => val (d j) := funext (cval_doubles hF d)
  have hin := vap_in hF (n := n) (doubles_fin hF hd) hA0 (by rw [ein]; exact hdA)
  rw [ein] at hin
  have hw := half_weight2 hn
  have hg := dctGain_bounds e
  have h := dct_vap (thr := thr) hF i hn h30 e hin (phi_ok hs.1 hA)
    (by
      have : 18 * (√(n:ℝ) * (3 / 2 * A)) = 27 * (√n * A) := by ring
      rw [this]
      exact big_ok hM (by norm_num) (by positivity)) (by omega)
  obtain ⟨f, b⟩ := vap_out hF (mul_nonneg (le_trans zero_le_one hg.1) (mul_nonneg (Real.sqrt_nonneg _) (le_trans (by positivity) hs.1)))
    hA0 h (by split <;> omega)
  refine ⟨fun t ht => (f t ht).1, ?_⟩
  have hex : ∀ t < n, dctOut ℂ thr e n (Spec.ofReal fun j => val (d j)) t = (e.exact n (fun j => val (d j)) t : ℂ) := by
    intro t ht
    cases hi : e.isInv with
    | false =>
      rw [dctOut_fwd thr hi hn _ ht, scC_eq, dfactor_eq, ← Complex.ofReal_mul]
      cases e <;> first | rfl | cases hi
    | true =>
      rw [dctOut_inv thr hi hn _ ht, scC_eq, dfactor_eq, ← Complex.ofReal_mul]
      cases e <;> first | rfl | cases hi
  rw [norm2_eq, nrm_congr (w := fun t => cval val (dctOut (Xmm F) thr e n (doubles d) t) -
    dctOut ℂ thr e n (Spec.ofReal fun j => val (d j)) t) fun t ht => by
      rw [hex t (mem_range.1 ht), ← hcell t, cval_doubles hF, Spec.ofReal, Spec.ofReal, Complex.ofReal_sub]]
  refine le_trans b (le_of_eq ?_)
  rw [dfactor_eq]
  unfold dctGain
  have hmem : (e ∈ [DctEntry.fwd, .fwd0, .fwdn]) ↔ e.isInv = false := by cases e <;> simp [DctEntry.isInv]
  cases hi : e.isInv with
  | false => rw [if_pos (hmem.2 hi)]; simp only [Bool.false_eq_true, if_false]; push_cast; ring
  | true =>
    have hm' : ¬ e ∈ [DctEntry.fwd, .fwd0, .fwdn] := fun h => by rw [hmem.1 h] at hi; cases hi
    simp only [if_true, if_neg hm']; push_cast; ring

/-- the computed spectrum is conjugate symmetric -/
theorem computed_herm (hF : Binary64 F val fin) (i : Target) (hn : RealLen n) {e : Entry} (hi : e.isInv = false) {v : ℕ → Xmm F}
    (hfin : letI := i.arith F; ∀ t < n, cfin fin (rfftOut (Xmm F) thr e n v t)) :
    letI := i.arith F
    Herm n fun t => cval val (rfftOut (Xmm F) thr e n v t) := by
  letI := i.arith F
  have hpos := hn.pos
  obtain ⟨h1, h2, h3⟩ := rfft_mirror i thr hn hi v
  have hz := (hF.ofNat 0 (by norm_num)).2
  have key : ∀ k, 0 < k → 2 * k < n → cval val (rfftOut (Xmm F) thr e n v (n - k)) =
      (starRingEnd ℂ) (cval val (rfftOut (Xmm F) thr e n v k)) := by
    intro k h0 hk
    obtain ⟨a, b⟩ := h1 k h0 hk
    refine Complex.ext ?_ ?_
    · show val (rfftOut (Xmm F) thr e n v (n - k) 0) = val (rfftOut (Xmm F) thr e n v k 0)
      rw [a]
    · show val (rfftOut (Xmm F) thr e n v (n - k) 1) = -val (rfftOut (Xmm F) thr e n v k 1)
      rw [b]
      exact (hF.neg _ (hfin k (by omega)).2).2
  refine ⟨?_, fun k h0 hk => ?_⟩
  · show val (rfftOut (Xmm F) thr e n v 0 1) = 0
    rw [h2, hz]
    simp
  · rcases Nat.lt_trichotomy (2 * k) n with h | h | h
    · exact key k h0 h
    · have e1 : n - k = k := by omega
      have e2 : n / 2 = k := by omega
      have := h3 (by omega)
      rw [e2] at this
      beta_reduce
      rw [e1]
      refine Complex.ext rfl ?_
      show val (rfftOut (Xmm F) thr e n v k 1) = -val (rfftOut (Xmm F) thr e n v k 1)
      rw [this, hz]
      simp
    · have := key (n - k) (by omega) (by omega)
      rw [show n - (n - k) = k by omega] at this
      beta_reduce
      rw [this, Complex.conj_conj]

theorem phi_ok2 {s₁ s₂ : ℝ} (h31 : n ≤ 2 ^ 31) (hpos : 0 < n) (h : s₁ * s₂ * n = 1) (hA : 1 / 2 ^ 960 ≤ A) :
    (2:ℝ) ^ 17 * (1 / 2 ^ 1010) ≤ s₂ * (√n * s₁ * (A / 2)) := by
  have hn : (0:ℝ) < n := by exact_mod_cast hpos
  have hq : √(n:ℝ) * √n = n := Real.mul_self_sqrt hn.le
  have hq0 : 0 < √(n:ℝ) := Real.sqrt_pos.2 hn
  have h1 : √(n:ℝ) ≤ 2 ^ 31 := by
    rw [Real.sqrt_le_left (by positivity)]
    have : (n:ℝ) ≤ 2 ^ 31 := by exact_mod_cast h31
    exact le_trans this (by norm_num)
  have e : s₂ * (√n * s₁ * (A / 2)) = 1 / √n * (A / 2) := by
    field_simp
    linear_combination A * h + A * s₂ * s₁ * hq
  rw [e]
  exact phi_ok (one_div_le_one_div_of_le hq0 h1) hA

theorem sq_cancel {s₁ s₂ : ℝ} (hpos : 0 < n) (h : s₁ * s₂ * n = 1) : √(n:ℝ) * s₂ * (√n * s₁) = 1 := by
  have hn : (0:ℝ) < n := by exact_mod_cast hpos
  have hq : √(n:ℝ) * √n = n := Real.mul_self_sqrt hn.le
  linear_combination s₁ * s₂ * hq + h

theorem sqrt_le_self (hpos : 0 < n) (hA : 0 ≤ A) : √n * A ≤ n * A := by
  have hn : (1:ℝ) ≤ n := by exact_mod_cast hpos
  have hq : √(n:ℝ) * √n = n := Real.mul_self_sqrt (by linarith)
  have h1 : 1 ≤ √(n:ℝ) := Real.one_le_sqrt.2 hn
  exact mul_le_mul_of_nonneg_right (by nlinarith) hA

/-- C62: a forward real transform followed by the matching inverse gives the signal back with an error of 2-norm at most
`2 · (errWeight2(n/2) + 336) · 2⁻⁵² · A`. -/
theorem C62_real_roundtrip (hF : Binary64 F val fin) (i : Target) (thr : Thr) (hn : RealLen n) (wf : w.WF) {d : ℕ → F}
    (hx : Arr w.heap x n (doubles d)) (hy : Alloc w.heap y n) (hz : Alloc w.heap z n) (hxy : Sep x n y n) (hyz : Sep y n z n)
    (hA : 1 / 2 ^ 960 ≤ A) (hM : n * A ≤ 2 ^ 1014) (hd : ∀ t < n, fin (d t))
    (hdA : norm2 n (Spec.ofReal fun j => val (d j)) ≤ A) (f g : Entry)
    (hfg : (f, g) ∈ [(Entry.fwd, Entry.inv), (.fwd, .inv0), (.fwdn, .inv), (.fwdn, .inv0), (.fwd0, .invn), (.fwdu, .invu)]) :
    letI := i.arith F
    ∃ out : ℕ → F, ComputesIn (realFFT (Xmm F) thr) n [(f, x, y), (g, y, z)] w (Region y n) z n (doubles out) ∧ (∀ t < n, fin (out t)) ∧
      norm2 n (Spec.ofReal fun t => val (out t) - val (d t)) ≤ 2 * (errWeight2 (n / 2) + 336) / 2 ^ 52 * A := by
  letI := i.arith F
  have hpos := hn.pos
  have h31 := RealLen.le31 hn
  have hA0 : 0 ≤ A := le_trans (by positivity) hA
  obtain ⟨hf, hg, hscC⟩ := real_pair hpos hfg
  have hsc := scR_pair hscC
  have a : RealArgs w f n x y (doubles d) := ⟨wf, hn, by rw [rfftNeed, hf]; exact hx, hx.alloc, hy, hxy⟩
  have hcell := fun t => rfft_cell i thr hg n (rfftOut (Xmm F) thr f n (doubles d)) t
  refine ⟨fun t => rfftOut (Xmm F) thr g n (rfftOut (Xmm F) thr f n (doubles d)) t 0,
    ComputesIn.congr (RFFT.computes2 (thr := thr) a hf hz hyz) (fun t _ => (hcell t).symm), ?_⟩
  have hs := ApLaws.scR_range n f.mode hpos h31
  have hs0 : 0 ≤ scR n f.mode := le_trans (by positivity) hs.1
  have ein : (fun t => cval val (doubles d t)) = Spec.ofReal fun j => val (d j) := funext (cval_doubles hF d)
  have hin := vap_in hF (n := n) (doubles_fin hF hd) hA0 (by rw [ein]; exact hdA)
  rw [ein] at hin
  have hw := half_weight2 hn
  have h1 := rfft_fwd_vap (thr := thr) hF i hn hf hin (phi_ok hs.1 hA)
    (by
      have : 18 * (√(n:ℝ) * (3 / 2 * A)) = 27 * (√n * A) := by ring
      rw [this]
      exact big_ok (le_trans (sqrt_le_self hpos hA0) hM) (by norm_num) (by positivity)) (by omega)
  have hH : Spec.Hermitian n (rfftOut ℂ thr f n (Spec.ofReal fun j => val (d j))) := by
    have h := hermitian_dft (n := n) (scC n f.mode) (scC_conj _ _) (fun j => val (d j)) hpos
    intro k hk
    rw [rfftOut_fwd thr hf hn _ (Nat.mod_lt _ hpos), rfftOut_fwd thr hf hn _ hk]
    exact h k hk
  have h2 := rfft_inv_vap (thr := thr) hF i hn hg (hermitian_facts hH hpos)
    (computed_herm hF i hn hf fun t ht => h1.fin t (mem_range.2 ht)) h1 (phi_ok2 h31 hpos hsc hA)
    (by
      have hq : √(n:ℝ) * √n = n := Real.mul_self_sqrt (by positivity)
      have : 18 * (√(n:ℝ) * (√n * scR n f.mode * (3 / 2 * A))) = 27 * (n * (scR n f.mode * A)) := by
        linear_combination 27 * scR n f.mode * A * hq
      rw [this]
      refine big_ok (le_trans ?_ hM) (by norm_num) (by positivity)
      exact mul_le_mul_of_nonneg_left (mul_le_of_le_one_left hA0 hs.2) (Nat.cast_nonneg n)) (by omega)
  have hl := sq_cancel hpos hsc
  rw [← mul_assoc, ← mul_assoc (√(n:ℝ) * scR n g.mode) (√(n:ℝ) * scR n f.mode), hl] at h2
  obtain ⟨fi, b⟩ := vap_out hF zero_le_one hA0 h2 (by omega)
  refine ⟨fun t ht => (fi t ht).1, ?_⟩
  rw [norm2_eq, nrm_congr (w := fun t => cval val (rfftOut (Xmm F) thr g n (rfftOut (Xmm F) thr f n (doubles d)) t) -
    rfftOut ℂ thr g n (rfftOut ℂ thr f n (Spec.ofReal fun j => val (d j))) t) fun t ht => by
      rw [rfftOut_twice thr hn _ (real_pair hpos hfg) (mem_range.1 ht), ← hcell t, cval_doubles hF, Spec.ofReal, Spec.ofReal,
        Complex.ofReal_sub]; rfl]
  refine le_trans b (le_of_eq ?_)
  push_cast
  ring

/-- C62: a cosine transform followed by its inverse, in either order: `(2 · errWeight2(n/2) + 1422) · 2⁻⁵² · √2 · A`. -/
theorem C62_dct_roundtrip (hF : Binary64 F val fin) (i : Target) (thr : Thr) (hn : RealLen n) (h30 : n < 2 ^ 30) (wf : w.WF)
    {d : ℕ → F} (hx : Arr w.heap x n (doubles d)) (hA : 1 / 2 ^ 960 ≤ A) (hM : n * A ≤ 2 ^ 1013)
    (hd : ∀ t < n, fin (d t)) (hdA : norm2 n (Spec.ofReal fun j => val (d j)) ≤ A) (f g : DctEntry)
    (hfg : (f, g) ∈ [(DctEntry.fwd, DctEntry.inv), (.fwd, .inv0), (.fwdn, .inv), (.fwdn, .inv0), (.fwd0, .invn)] ∨
      (g, f) ∈ [(DctEntry.fwd, DctEntry.inv), (.fwd, .inv0), (.fwdn, .inv), (.fwdn, .inv0), (.fwd0, .invn)]) :
    letI := i.arith F
    ∃ out : ℕ → F, Computes (realDCT (Xmm F) thr) n [(f, x), (g, x)] w x n (doubles out) ∧ (∀ t < n, fin (out t)) ∧
      norm2 n (Spec.ofReal fun t => val (out t) - val (d t)) ≤ (2 * errWeight2 (n / 2) + 1422) / 2 ^ 52 * (√2 * A) := by
  letI := i.arith F
  have hpos := hn.pos
  have h31 := RealLen.le31 hn
  have hA0 : 0 ≤ A := le_trans (by positivity) hA
  have hsc : scR n f.mode * scR n g.mode * n = 1 := by
    rcases hfg with h | h
    · obtain ⟨c, d, -, -, hc, hd, h⟩ := dct_pair hpos h
      exact scR_pair (by rw [hc, hd]; exact_mod_cast h)
    · obtain ⟨c, d, -, -, hc, hd, h⟩ := dct_pair hpos h
      exact scR_pair (by rw [hc, hd, mul_comm (d : ℂ)]; exact_mod_cast h)
  have hinv : g.isInv = !f.isInv := by
    rcases hfg with h | h
    · obtain ⟨c, d, h1, h2, -⟩ := dct_pair hpos h
      rw [h1, h2]; rfl
    · obtain ⟨c, d, h1, h2, -⟩ := dct_pair hpos h
      rw [h1, h2]; rfl
  have htw : ∀ t < n, dctOut ℂ thr g n (dctOut ℂ thr f n (Spec.ofReal fun j => val (d j))) t = Spec.ofReal (fun j => val (d j)) t := by
    intro t ht
    rcases hfg with h | h
    · exact (dctOut_twice thr hn h30 _ (dct_pair hpos h) ht).1
    · exact (dctOut_twice thr hn h30 _ (dct_pair hpos h) ht).2
  have hgain : dctGain g * dctGain f = √2 := by
    unfold dctGain
    rw [hinv]
    cases f.isInv <;> simp
  have hnum : (if f.isInv then 1053 else 369) + (if g.isInv then 1053 else 369) = 1422 := by
    rw [hinv]
    cases f.isInv <;> rfl
  have hcell := fun t => (dct_cell (F := F) i thr g n (v := dctOut (Xmm F) thr f n (doubles d)) (t := t)
    (dct_cell (F := F) i thr f n (v := doubles d) ⟨_, rfl⟩).2).1
  refine ⟨fun t => dctOut (Xmm F) thr g n (dctOut (Xmm F) thr f n (doubles d)) t 0,
    ComputesIn.toComputes (DCT.computes (thr := thr) wf hn h30 hx [f, g]) (Set.empty_subset _) (fun t _ => (hcell t).symm), ?_⟩
  have hs := ApLaws.scR_range n f.mode hpos h31
  have hs0 : 0 ≤ scR n f.mode := le_trans (by positivity) hs.1
  have hgf := dctGain_bounds f
  have ein : (fun t => cval val (doubles d t)) = Spec.ofReal fun j => val (d j) := funext (cval_doubles hF d)
  have hin := vap_in hF (n := n) (doubles_fin hF hd) hA0 (by rw [ein]; exact hdA)
  rw [ein] at hin
  have hw := half_weight2 hn
  have hM' : √n * A ≤ 2 ^ 1014 := le_trans (sqrt_le_self hpos hA0) (le_trans hM (pow_le_pow_right₀ (by norm_num) (by norm_num)))
  have h1 := dct_vap (thr := thr) hF i hn h30 f hin (phi_ok hs.1 hA)
    (by
      have : 18 * (√(n:ℝ) * (3 / 2 * A)) = 27 * (√n * A) := by ring
      rw [this]
      exact big_ok hM' (by norm_num) (by positivity)) (by omega)
  have h2 := dct_vap (thr := thr) hF i hn h30 g h1
    (by
      refine le_trans (phi_ok2 h31 hpos hsc hA) ?_
      have hsg := ApLaws.scR_range n g.mode hpos h31
      refine mul_le_mul_of_nonneg_left (mul_le_mul_of_nonneg_right ?_ (by positivity)) (le_trans (by positivity) hsg.1)
      exact le_mul_of_one_le_left (by positivity) hgf.1)
    (by
      have hq : √(n:ℝ) * √n = n := Real.mul_self_sqrt (by positivity)
      have : 18 * (√(n:ℝ) * (dctGain f * (√n * scR n f.mode) * (3 / 2 * A))) = 27 * (n * (scR n f.mode * (dctGain f * A))) := by
        linear_combination 27 * scR n f.mode * dctGain f * A * hq
      rw [this]
      have hG0 : 0 ≤ dctGain f := le_trans zero_le_one hgf.1
      refine big_ok ?_ (by norm_num) (by positivity)
      have e14 : (2:ℝ) ^ 1014 = 2 * 2 ^ 1013 := by rw [show 1014 = 1 + 1013 from rfl, pow_add]; norm_num
      rw [e14]
      have h3 : scR n f.mode * (dctGain f * A) ≤ 1 * (2 * A) :=
        mul_le_mul hs.2 (mul_le_mul_of_nonneg_right (le_trans hgf.2 (by norm_num)) hA0) (by positivity) zero_le_one
      have h4 := mul_le_mul_of_nonneg_left h3 (Nat.cast_nonneg (α := ℝ) n)
      have h5 : (n:ℝ) * (1 * (2 * A)) = 2 * (n * A) := by ring
      rw [h5] at h4
      exact le_trans h4 (mul_le_mul_of_nonneg_left hM (by norm_num))) (by split <;> omega)
  have hl := sq_cancel hpos hsc
  have e1 : ∀ X : ℝ, dctGain g * (√n * scR n g.mode) * (dctGain f * (√n * scR n f.mode) * X) = √2 * X := by
    intro X
    rw [← hgain]
    linear_combination dctGain g * dctGain f * X * hl
  rw [e1, e1] at h2
  obtain ⟨fi, b⟩ := vap_out hF (Real.sqrt_nonneg 2) hA0 h2 (by omega)
  refine ⟨fun t ht => (fi t ht).1, ?_⟩
  rw [norm2_eq, nrm_congr (w := fun t => cval val (dctOut (Xmm F) thr g n (dctOut (Xmm F) thr f n (doubles d)) t) -
    dctOut ℂ thr g n (dctOut ℂ thr f n (Spec.ofReal fun j => val (d j))) t) fun t ht => by
      rw [htw t (mem_range.1 ht), ← hcell t, cval_doubles hF, Spec.ofReal, Spec.ofReal, Complex.ofReal_sub]; rfl]
  refine le_trans b (le_of_eq ?_)
  have e2 : (0 + errWeight2 (n / 2) + (if f.isInv then 1053 else 369) + errWeight2 (n / 2) + if g.isInv then 1053 else 369) =
      2 * errWeight2 (n / 2) + 1422 := by omega
  rw [e2]
  push_cast
  ring

end

/-! ### the hypotheses are met -/

/-- lengths `2^(l+1)` up to `2^20`, AVX with FMA: the relative error of `fwdu` is below `10⁻¹²` for every signal of 2-norm 1 -/
example (thr : Thr) {l : ℕ} (h1 : 1 ≤ l) (hl : l ≤ 19) (d : ℕ → R53)
    (hd : norm2 (2 * 2 ^ l) (Spec.ofReal fun j => (d j).val) = 1) :
    letI := (⟨true, true, true, true, false⟩ : Target).arith R53
    ∃ out : ℕ → Xmm R53, Computes (realFFT (Xmm R53) thr) (2 * 2 ^ l) [(.fwdu, Ptr.base 1, Ptr.base 2)]
        (twoArrays (2 * 2 ^ l) (doubles d)) (Ptr.base 2) (2 * 2 ^ l) out ∧
      norm2 (2 * 2 ^ l) (fun t => cval R53.val (out t) - Entry.exact (2 * 2 ^ l) .fwdu (Spec.ofReal fun j => (d j).val) t) ≤
        1 / 10 ^ 12 * norm2 (2 * 2 ^ l) (Entry.exact (2 * 2 ^ l) .fwdu (Spec.ofReal fun j => (d j).val)) := by
  have h2 : 2 ≤ 2 ^ l := by
    calc 2 = 2 ^ 1 := rfl
      _ ≤ 2 ^ l := Nat.pow_le_pow_right (by omega) h1
  have h3 : 2 ^ l ≤ 2 ^ 19 := Nat.pow_le_pow_right (by omega) hl
  obtain ⟨out, h, -, hb⟩ := @C62_real_relative R53 _ _ _ _ (2 * 2 ^ l) _ (Ptr.base 1) (Ptr.base 2) rounded_laws
    ⟨true, true, true, true, false⟩ thr (Or.inr ⟨2 ^ l, rfl, validLen_pow l h1 (by omega), by omega⟩)
    (twoArrays_ok (2 * 2 ^ l) (doubles d)).wf d (twoArrays_ok (2 * 2 ^ l) (doubles d)).arr
    (fun i hi => by simp only [twoArrays, Ptr.base, Ptr.loc_add, Nat.zero_add, hi]; simp) (Sep.of_buf (by simp [Ptr.base]) _ _)
    (fun t _ => trivial) (by rw [hd]; exact div_le_one_of_le₀ (one_le_pow₀ (by norm_num)) (by positivity))
    (by
      rw [hd, mul_one]
      have : √((2 * 2 ^ l : ℕ) : ℝ) ≤ 2 ^ 20 := by
        rw [Real.sqrt_le_left (by positivity)]
        have : ((2 * 2 ^ l : ℕ) : ℝ) ≤ 2 ^ 20 := by exact_mod_cast (by omega)
        exact le_trans this (by norm_num)
      exact le_trans this (pow_le_pow_right₀ (by norm_num) (by norm_num))) .fwdu (by simp)
  refine ⟨out, h, le_trans hb (mul_le_mul_of_nonneg_right ?_ (norm2_nonneg _ _))⟩
  rw [show 2 * 2 ^ l / 2 = 2 ^ l by omega, errWeight2_two_pow]
  have : ((55 * l : ℕ) : ℝ) ≤ 1045 := by exact_mod_cast (by omega)
  calc _ ≤ ((1045:ℝ) + 336) / 2 ^ 52 := by gcongr
    _ ≤ _ := by norm_num

/-- a cosine transform and its inverse, even lengths up to 2000, for every signal of 2-norm at most 1: the error is below `10⁻⁸` -/
example (thr : Thr) {m : ℕ} (h2 : 2 ≤ m) (hm : m ≤ 1000) (d : ℕ → R53)
    (hd : norm2 (2 * m) (Spec.ofReal fun j => (d j).val) ≤ 1) :
    letI := (⟨true, false, false, false, false⟩ : Target).arith R53
    ∃ out : ℕ → R53, Computes (realDCT (Xmm R53) thr) (2 * m) [(.fwd, Ptr.base 1), (.inv, Ptr.base 1)] (oneArray (2 * m) (doubles d))
        (Ptr.base 1) (2 * m) (doubles out) ∧
      norm2 (2 * m) (Spec.ofReal fun t => (out t).val - (d t).val) ≤ 1 / 10 ^ 8 := by
  have hm' : (m:ℝ) ≤ 1000 := by exact_mod_cast hm
  obtain ⟨out, h, -, hb⟩ := @C62_dct_roundtrip R53 _ _ _ _ (2 * m) 1 _ (Ptr.base 1) rounded_laws
    ⟨true, false, false, false, false⟩ thr (realLen_of_le h2 (by omega)) (by omega)
    (oneArray_ok (2 * m) (doubles d)).wf d (oneArray_ok (2 * m) (doubles d)).arr
    (div_le_one_of_le₀ (one_le_pow₀ (by norm_num)) (by positivity))
    (by
      have : ((2 * m : ℕ) : ℝ) * 1 ≤ 2 ^ 11 := by push_cast; linarith
      exact le_trans this (pow_le_pow_right₀ (by norm_num) (by norm_num)))
    (fun t _ => trivial) hd .fwd .inv (by simp)
  refine ⟨out, h, le_trans hb ?_⟩
  have hw : (errWeight2 (2 * m / 2) : ℝ) ≤ 220000 := by
    rw [show 2 * m / 2 = m by omega]
    have := errWeight2_le m (validLen_of_le h2 (by omega)).small
    exact_mod_cast (by omega : errWeight2 m ≤ 220000)
  have h14 := Flt.sqrt2_bounds.2
  calc _ ≤ (2 * (220000:ℝ) + 1422) / 2 ^ 52 * (1.42 * 1) := by gcongr
    _ ≤ _ := by norm_num

/-- an inverse transform of a non-zero conjugate symmetric vector -/
example (thr : Thr) : letI := (⟨true, true, false, false, false⟩ : Target).arith R53
    ∃ out : ℕ → R53, ComputesIn (realFFT (Xmm R53) thr) 6 [(.inv, Ptr.base 1, Ptr.base 2)]
      (twoArrays 6 fun t => if t = 0 then ![⟨1⟩, ⟨0⟩] else ![⟨0⟩, ⟨0⟩]) (Region (Ptr.base 1) 6) (Ptr.base 2) 6 (doubles out) ∧
      (∀ t < 6, True) ∧ norm2 6 (fun t => ((out t).val : ℂ) - Entry.exact 6 .inv (fun k => if k = 0 then 1 else 0) t) ≤
        (errWeight2 (6 / 2) + 336) / 2 ^ 52 * (Entry.factor 6 .inv * √(6 : ℕ) * 1) := by
  have ok := twoArrays_ok 6 (fun t => if t = 0 then ![(⟨1⟩ : R53), ⟨0⟩] else ![⟨0⟩, ⟨0⟩])
  have hcv : ∀ t, cval R53.val (if t = 0 then ![(⟨1⟩ : R53), ⟨0⟩] else ![⟨0⟩, ⟨0⟩]) = (if t = 0 then 1 else 0 : ℂ) := by
    intro t
    split <;> (apply Complex.ext <;> simp [cval])
  exact @C62_real_inverse R53 _ _ _ _ 6 1 _ (Ptr.base 1) (Ptr.base 2) rounded_laws ⟨true, true, false, false, false⟩ thr
    (realLen_of_le (m := 3) (by omega) (by omega)) ok.wf _ (fun i hi => ok.arr i (by omega)) ok.arr.alloc
    (fun i hi => by simp only [twoArrays, Ptr.base, Ptr.loc_add, Nat.zero_add, hi]; simp) (Sep.of_buf (by simp [Ptr.base]) _ _)
    (div_le_one_of_le₀ (one_le_pow₀ (by norm_num)) (by positivity))
    (by
      rw [mul_one]
      refine le_trans (b := 6) ?_ (le_trans (b := (2:ℝ) ^ 3) (by norm_num) (pow_le_pow_right₀ (by norm_num) (by norm_num)))
      rw [Real.sqrt_le_left (by norm_num)]
      norm_num)
    (fun t _ => ⟨trivial, trivial⟩) (fun k => if k = 0 then 1 else 0)
    (by intro k hk; interval_cases k <;> simp) (fun t _ => (hcv t).symm)
    (by unfold norm2; simp [Finset.sum_range_succ]) .inv (by simp)

end OTFFT.Props
