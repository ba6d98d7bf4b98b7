/-
C78: the classes agree with one another in double precision.
-/
import Verif.Props.NearIdentities
import Verif.Props.AccuracyRmsReal

namespace OTFFT.Props
open OTFFT Finset

variable {F : Type} [FArith F] [Inhabited F] {val : F → ℝ} {fin : F → Prop} {M : ℝ} {n : ℕ}

theorem near_near {A B D : ℂ} {a b : ℝ} (h1 : ‖A - D‖ ≤ a) (h2 : ‖B - D‖ ≤ b) : ‖A - B‖ ≤ a + b := by
  calc ‖A - B‖ = ‖(A - D) - (B - D)‖ := by ring_nf
    _ ≤ _ := norm_sub_le _ _
    _ ≤ _ := add_le_add h1 h2

theorem validLen_of_real (hr : RealLen n) (h2 : 2 ≤ n) : ValidLen n := by
  rcases hr with rfl | ⟨m, rfl, hm, hi⟩
  · omega
  · refine ⟨h2, fun q hq hd => ?_, hi⟩
    rcases (Nat.Prime.dvd_mul hq).1 hd with h | h
    · have := Nat.le_of_dvd (by norm_num) h
      omega
    · exact hm.small q hq h

/-- C78: two builds of the library (instruction set, FMA, thread thresholds) of ComplexFFT. -/
theorem C78_builds (hF : Binary64 F val fin) (i i' : Target) (thr thr' : Thr) (hn : ValidLen n) {w w' : World (Xmm F)} {x x' : Ptr}
    {v : ℕ → Xmm F} (hx : UserArray w x n v) (hx' : UserArray w' x' n v) (hm : 1 / 2 ^ 970 ≤ M) (hM : n * M ≤ 2 ^ 1019)
    (hv : ∀ t < n, cfin fin (v t) ∧ ‖cval val (v t)‖ ≤ M) (e : Entry) :
    ∃ out out' : ℕ → Xmm F,
      (letI := i.arith F; Computes (complexFFT (Xmm F) thr) n [(e, x)] w x n out) ∧
      (letI := i'.arith F; Computes (complexFFT (Xmm F) thr') n [(e, x')] w' x' n out') ∧
      ∀ t < n, ‖cval val (out t) - cval val (out' t)‖ ≤ 2 * errWeight n / 2 ^ 52 * (n * (e.factor n * M)) := by
  obtain ⟨o, h, b⟩ := C46_accuracy hF i thr hn hx hm hM hv e
  obtain ⟨o', h', b'⟩ := C46_accuracy hF i' thr' hn hx' hm hM hv e
  exact ⟨o, o', h, h', fun t ht => le_trans (near_near (b t ht).2 (b' t ht).2) (le_of_eq (by ring))⟩

/-- C78: Bluestein's algorithm and ComplexFFT, lengths both support. -/
theorem C78_bluestein (hF : Binary64 F val fin) (i i' : Target) (thr thr' : Thr) (hn : ValidLen n) (h29 : n ≤ 2 ^ 29)
    {w w' : World (Xmm F)} {x x' : Ptr} {v : ℕ → Xmm F} (hx : UserArray w x n v) (hx' : UserArray w' x' n v)
    (hm : 1 / 2 ^ 970 ≤ M) (hM : n * (n * (n * M)) ≤ 2 ^ 1013) (hv : ∀ t < n, cfin fin (v t) ∧ ‖cval val (v t)‖ ≤ M) (e : Entry) :
    ∃ out out' : ℕ → Xmm F,
      (letI := i.arith F; Computes (complexFFT (Xmm F) thr) n [(e, x)] w x n out) ∧
      (letI := i'.arith F; Computes (bluesteinFFT (Xmm F) thr') n [(e, x')] w' x' n out') ∧
      ∀ t < n, ‖cval val (out t) - cval val (out' t)‖ ≤
        (errWeight n + 16 * n * (150 * Nat.clog 2 n + 207)) / 2 ^ 52 * (n * (e.factor n * M)) := by
  have h2 := hn.two
  have hM0 : 0 ≤ M := le_trans (by positivity) hm
  have hn1 : (1:ℝ) ≤ n := by exact_mod_cast (by omega : 1 ≤ n)
  have hM' : n * M ≤ 2 ^ 1019 := by
    have h1 : (n:ℝ) * M ≤ n * (n * (n * M)) := by
      have : (0:ℝ) ≤ n * M := by positivity
      nlinarith [mul_le_mul hn1 hn1 (by norm_num) (by linarith)]
    exact le_trans h1 (le_trans hM (pow_le_pow_right₀ (by norm_num) (by norm_num)))
  obtain ⟨o, h, b⟩ := C46_accuracy hF i thr hn hx hm hM' hv e
  obtain ⟨o', h', b'⟩ := C48_bluestein hF i' thr' (by omega) h29 hx' hm hM hv e
  exact ⟨o, o', h, h', fun t ht => le_trans (near_near (b t ht).2 (b' t ht).2) (le_of_eq (by ring))⟩

/-- C78: RealFFT and ComplexFFT on the same real signal, forward: all `n` bins. -/
theorem C78_real_forward (hF : Binary64 F val fin) (i i' : Target) (thr thr' : Thr) (hr : RealLen n) (h2 : 2 ≤ n)
    {w w' : World (Xmm F)} {x y x' : Ptr} {d : ℕ → F} (wf : w.WF) (hx : Arr w.heap x n (doubles d)) (hy : Alloc w.heap y n)
    (hxy : Sep x n y n) (hx' : UserArray w' x' n (doubles d)) (hm : 1 / 2 ^ 970 ≤ M) (hM : n * M ≤ 2 ^ 1016)
    (hd : ∀ t < n, fin (d t) ∧ |val (d t)| ≤ M) (e : Entry) (he : e ∈ [Entry.fwd, .fwd0, .fwdu, .fwdn]) :
    ∃ out out' : ℕ → Xmm F,
      (letI := i.arith F; Computes (realFFT (Xmm F) thr) n [(e, x, y)] w y n out) ∧
      (letI := i'.arith F; Computes (complexFFT (Xmm F) thr') n [(e, x')] w' x' n out') ∧
      ∀ t < n, ‖cval val (out t) - cval val (out' t)‖ ≤
        (errWeight n + 3 * (errWeight (n / 2) + 84)) / 2 ^ 52 * (n * (e.factor n * M)) := by
  have hn := validLen_of_real hr h2
  obtain ⟨o, h, b⟩ := C47_real_forward hF i thr hr wf hx hy hxy hm hM hd e he
  have hc : ∀ t < n, cfin fin (doubles d t) ∧ ‖cval val (doubles d t)‖ ≤ M := fun t ht =>
    ⟨doubles_fin hF (fun s hs => (hd s hs).1) t ht, by rw [cval_doubles hF, Spec.ofReal, Complex.norm_real]; exact (hd t ht).2⟩
  obtain ⟨o', h', b'⟩ := C46_accuracy hF i' thr' hn hx' hm (le_trans hM (pow_le_pow_right₀ (by norm_num) (by norm_num))) hc e
  have hv : (fun j => cval val (doubles d j)) = Spec.ofReal fun j => val (d j) := by
    funext j; exact cval_doubles hF d j
  rw [hv] at b'
  exact ⟨o, o', h, h', fun t ht => le_trans (near_near (b t ht).2 (b' t ht).2) (le_of_eq (by ring))⟩

/-- C78: RealFFT and ComplexFFT on the same Hermitian spectrum, inverse: the real part agrees, and the imaginary part ComplexFFT
leaves is rounding error only. -/
theorem C78_real_inverse (hF : Binary64 F val fin) (i i' : Target) (thr thr' : Thr) (hr : RealLen n) (h2 : 2 ≤ n)
    {w w' : World (Xmm F)} {x y x' : Ptr} {v : ℕ → Xmm F} (wf : w.WF) (hx : Arr w.heap x (n / 2 + 1) v) (hxn : Alloc w.heap x n)
    (hy : Alloc w.heap y n) (hxy : Sep x n y n) (hx' : UserArray w' x' n v) (hm : 1 / 2 ^ 970 ≤ M) (hM : n * M ≤ 2 ^ 1016)
    (hv : ∀ t < n, cfin fin (v t) ∧ ‖cval val (v t)‖ ≤ M) (hH : Spec.Hermitian n fun t => cval val (v t)) (e : Entry)
    (he : e ∈ [Entry.inv, .inv0, .invu, .invn]) :
    ∃ (out : ℕ → F) (out' : ℕ → Xmm F),
      (letI := i.arith F; ComputesIn (realFFT (Xmm F) thr) n [(e, x, y)] w (Region x n) y n (doubles out)) ∧
      (letI := i'.arith F; Computes (complexFFT (Xmm F) thr') n [(e, x')] w' x' n out') ∧
      ∀ t < n, |val (out t) - val (out' t 0)| ≤
          (errWeight n + 3 * (errWeight (n / 2) + 84)) / 2 ^ 52 * (n * (e.factor n * M)) ∧
        |val (out' t 1)| ≤ (errWeight n + 3 * (errWeight (n / 2) + 84)) / 2 ^ 52 * (n * (e.factor n * M)) := by
  have hn := validLen_of_real hr h2
  obtain ⟨o, h, b⟩ := C47_real_inverse hF i thr hr wf hx hxn hy hxy hm hM (fun t ht => hv t (by have := hr.even; omega)) hH
    (fun t _ => rfl) e he
  obtain ⟨o', h', b'⟩ := C46_accuracy hF i' thr' hn hx' hm (le_trans hM (pow_le_pow_right₀ (by norm_num) (by norm_num))) hv e
  refine ⟨o, o', h, h', fun t ht => ?_⟩
  have hd := le_trans (near_near (b t ht).2 (b' t ht).2) (le_of_eq (by ring :
    _ = (errWeight n + 3 * (errWeight (n / 2) + 84)) / 2 ^ 52 * (n * (e.factor n * M))))
  have hre : ((val (o t) : ℂ) - cval val (o' t)).re = val (o t) - val (o' t 0) := by simp [cval]
  have him : ((val (o t) : ℂ) - cval val (o' t)).im = -val (o' t 1) := by simp [cval]
  refine ⟨?_, ?_⟩
  · rw [← hre]; exact le_trans (Complex.abs_re_le_norm _) hd
  · have := le_trans (Complex.abs_im_le_norm _) hd
    rwa [him, abs_neg] at this

variable [Libm]

/-- length 6, IEEE doubles between -1 and 1: Bluestein built for one processor and ComplexFFT built for another -/
example (i i' : Target) (thr thr' : Thr) (v : ℕ → Xmm Dbl64) (hv : ∀ t < 6, cfin Dbl64.Finite (v t) ∧ ‖cval Ieee.val (v t)‖ ≤ 1) :
    ∃ out out' : ℕ → Xmm Dbl64,
      (letI := i.arith Dbl64; Computes (complexFFT (Xmm Dbl64) thr) 6 [(.fwdn, Ptr.base 1)] (oneArray 6 v) (Ptr.base 1) 6 out) ∧
      (letI := i'.arith Dbl64; Computes (bluesteinFFT (Xmm Dbl64) thr') 6 [(.fwdn, Ptr.base 1)] (oneArray 6 v) (Ptr.base 1) 6 out') ∧
      ∀ t < 6, ‖cval Ieee.val (out t) - cval Ieee.val (out' t)‖ ≤
        (errWeight 6 + 16 * (6 : ℕ) * (150 * Nat.clog 2 6 + 207)) / 2 ^ 52 * ((6 : ℕ) * (Entry.factor 6 .fwdn * 1)) :=
  C78_bluestein ieee_binary64 i i' thr thr' (validLen_of_le (by norm_num) (by norm_num)) (by norm_num) (oneArray_ok 6 v)
    (oneArray_ok 6 v) (div_le_one_of_le₀ (one_le_pow₀ (by norm_num)) (by positivity))
    (le_trans (by norm_num : ((6 : ℕ) : ℝ) * ((6 : ℕ) * ((6 : ℕ) * 1)) ≤ 2 ^ 8) (pow_le_pow_right₀ (by norm_num) (by norm_num))) hv .fwdn

/-- length 10, any doubles between -1 and 1: RealFFT and ComplexFFT of the same signal -/
example (i i' : Target) (thr thr' : Thr) (d : ℕ → Dbl64) (hd : ∀ t < 10, (d t).Finite ∧ |Ieee.val (d t)| ≤ 1) :
    ∃ out out' : ℕ → Xmm Dbl64,
      (letI := i.arith Dbl64; Computes (realFFT (Xmm Dbl64) thr) 10 [(.fwd, Ptr.base 1, Ptr.base 2)] (twoArrays 10 (doubles d)) (Ptr.base 2) 10 out) ∧
      (letI := i'.arith Dbl64; Computes (complexFFT (Xmm Dbl64) thr') 10 [(.fwd, Ptr.base 1)] (oneArray 10 (doubles d)) (Ptr.base 1) 10 out') ∧
      ∀ t < 10, ‖cval Ieee.val (out t) - cval Ieee.val (out' t)‖ ≤
        (errWeight 10 + 3 * (errWeight (10 / 2) + 84)) / 2 ^ 52 * ((10 : ℕ) * (Entry.factor 10 .fwd * 1)) :=
  C78_real_forward ieee_binary64 i i' thr thr' (.inr ⟨5, rfl, validLen_of_le (by norm_num) (by norm_num), by norm_num⟩) (by norm_num)
    (twoArrays_ok 10 (doubles d)).wf (twoArrays_ok 10 (doubles d)).arr (twoArrays_alloc _ _) (twoArrays_sep _)
    (oneArray_ok 10 (doubles d)) (div_le_one_of_le₀ (one_le_pow₀ (by norm_num)) (by positivity))
    (le_trans (by norm_num : ((10 : ℕ) : ℝ) * 1 ≤ 2 ^ 8) (pow_le_pow_right₀ (by norm_num) (by norm_num))) hd .fwd (by simp)

end OTFFT.Props
