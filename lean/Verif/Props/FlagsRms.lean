/-
C89: the relative accuracy of whole results for which no exception flag was raised, however large or small the input is.
-/
import Verif.Props.FlagsAccuracy
import Verif.Props.AccuracyRmsBlue

namespace OTFFT.Props

open Finset

variable [Libm]

/-! ### numbers with 53 bits and unlimited exponent -/

omit [Libm] in
theorem norm2_smul (n : ℕ) {s : ℂ} {r : ℝ} (hs : ‖s‖ = r) (x : ℕ → ℂ) : norm2 n (fun t => s * x t) = r * norm2 n x := by
  have h0 : 0 ≤ r := hs ▸ norm_nonneg _
  unfold norm2
  simp only [norm_mul, mul_pow, hs]
  rw [← mul_sum, Real.sqrt_mul (by positivity), Real.sqrt_sq h0]

omit [Libm] in
theorem norm2_congr {n : ℕ} {x y : ℕ → ℂ} (h : ∀ t < n, x t = y t) : norm2 n x = norm2 n y := by
  unfold norm2
  rw [sum_congr rfl fun t ht => by rw [h t (mem_range.1 ht)]]

section free
variable {n : ℕ} {A : ℝ}

omit [Libm] in
theorem ge_960 {A : ℝ} (h : 1 ≤ A) : 1 / 2 ^ 960 ≤ A :=
  le_trans (div_le_one_of_le₀ (one_le_pow₀ (by norm_num)) (by positivity)) h

omit [Libm] in
theorem rtA_le {k : ℕ} (hk : 64 ≤ k) (h31 : n ≤ 2 ^ 31) (h0 : 0 ≤ A) (h2 : A ≤ 2) : √n * A ≤ (2:ℝ) ^ k := by
  have h31 : √(n:ℝ) ≤ 2 ^ 31 := by
    rw [Real.sqrt_le_left (by positivity)]
    have : (n:ℝ) ≤ 2 ^ 31 := by exact_mod_cast h31
    exact le_trans this (by norm_num)
  calc √n * A ≤ 2 ^ 31 * 2 := mul_le_mul h31 h2 h0 (by positivity)
    _ ≤ 2 ^ 64 := by norm_num
    _ ≤ 2 ^ k := pow_le_pow_right₀ (by norm_num) hk

omit [Libm] in
/-- the error of a whole result that scales with the input -/
theorem err_scale2 {k : ℤ} {a b c d : ℕ → ℂ} (h1 : ∀ t < n, a t = 2 ^ k * b t) (h2 : ∀ t, c t = 2 ^ k * d t) :
    norm2 n (fun t => a t - c t) = 2 ^ k * norm2 n (fun t => b t - d t) := by
  rw [← norm2_smul n (norm_two_zpow k)]
  exact norm2_congr fun t ht => by rw [h1 t ht, h2 t, mul_sub]

omit [Libm] in
theorem norm2_scl2 (k : ℤ) (v : ℕ → Xmm R) :
    norm2 n (fun t => cval Rounded.val (scl2 k v t)) = 2 ^ k * norm2 n (fun t => cval Rounded.val (v t)) := by
  rw [← norm2_smul n (norm_two_zpow k)]
  exact norm2_congr fun t _ => cval_scl2 k v t

omit [Libm] in
theorem exact_scl2 (e : Entry) (k : ℤ) (v : ℕ → Xmm R) (t : ℕ) :
    e.exact n (fun j => cval Rounded.val (scl2 k v j)) t = 2 ^ k * e.exact n (fun j => cval Rounded.val (v j)) t := by
  rw [← exact_scale]
  congr 1
  funext j
  exact cval_scl2 k v j

theorem complex_free2 (i : Target) (thr : Thr) (hn : ValidLen n) (v : ℕ → Xmm R) (e : Entry) :
    letI := i.arith R
    norm2 n (fun t => cval Rounded.val (fftOut (Xmm R) thr e.isInv e.mode n v t) - e.exact n (fun j => cval Rounded.val (v j)) t) ≤
      errWeight2 n / 2 ^ 52 * (e.factor n * √n) * norm2 n (fun t => cval Rounded.val (v t)) := by
  letI := i.arith R
  refine scale_free (P := fun (v : ℕ → Xmm R) A => norm2 n (fun t => cval Rounded.val (v t)) ≤ A) (sm := scl2)
    (err := fun v => norm2 n (fun t => cval Rounded.val (fftOut (Xmm R) thr e.isInv e.mode n v t) - e.exact n (fun j => cval Rounded.val (v j)) t))
    (fun k v A h => ?_) (fun v A A' hA h => le_trans h hA) (fun k v A h => ?_) (fun v A h1 h2 h => ?_) (norm2_nonneg _ _) le_rfl
  · rw [norm2_scl2]
    exact mul_le_mul_of_nonneg_left h (by positivity)
  · exact err_scale2 (out_scl2 i thr .complex (n := n) trivial e k v) (exact_scl2 e k v)
  · have := (fftOut_err2 rounded53_laws i hn (ge_960 h1) (rtA_le (by norm_num) hn.int.le (by linarith) h2) (fun t _ => ⟨trivial, trivial⟩) h thr e).2
    rw [mul_assoc]
    exact this

theorem bluestein_free2 (i : Target) (thr : Thr) (h1 : 1 ≤ n) (h29 : n ≤ 2 ^ 29) (v : ℕ → Xmm R) (e : Entry) :
    letI := i.arith R
    norm2 n (fun t => cval Rounded.val (blueOutF (Xmm R) thr e n v t) - e.exact n (fun j => cval Rounded.val (v j)) t) ≤
      blueWeight2 n / 2 ^ 52 * (e.factor n * √n) * norm2 n (fun t => cval Rounded.val (v t)) := by
  letI := i.arith R
  refine scale_free (P := fun (v : ℕ → Xmm R) A => norm2 n (fun t => cval Rounded.val (v t)) ≤ A) (sm := scl2)
    (err := fun v => norm2 n (fun t => cval Rounded.val (blueOutF (Xmm R) thr e n v t) - e.exact n (fun j => cval Rounded.val (v j)) t))
    (fun k v A h => ?_) (fun v A A' hA h => le_trans h hA) (fun k v A h => ?_) (fun v A h1' h2 h => ?_) (norm2_nonneg _ _) le_rfl
  · rw [norm2_scl2]
    exact mul_le_mul_of_nonneg_left h (by positivity)
  · exact err_scale2 (out_scl2 i thr .bluestein (n := n) h29 e k v) (exact_scl2 e k v)
  · have hn : (n:ℝ) ≤ 2 ^ 29 := by exact_mod_cast h29
    have hA0 : 0 ≤ A := by linarith
    have hb : n * (n * A) ≤ (2:ℝ) ^ 1011 := by
      calc n * (n * A) ≤ (2:ℝ) ^ 29 * (2 ^ 29 * 2) := by gcongr
        _ = 2 ^ 59 := by norm_num
        _ ≤ 2 ^ 1011 := pow_le_pow_right₀ (by norm_num) (by norm_num)
    have := (blueOut_err2 rounded53_laws i h1 h29 (ge_960 h1') hb (fun t _ => ⟨trivial, trivial⟩) h thr e).2
    rw [mul_assoc]
    exact this

omit [Libm] in
theorem norm2_real_scale (k : ℤ) (d : ℕ → ℝ) : norm2 n (Spec.ofReal fun t => 2 ^ k * d t) = 2 ^ k * norm2 n (Spec.ofReal d) := by
  rw [← norm2_smul n (norm_two_zpow k)]
  exact norm2_congr fun t _ => by
    show (((2 ^ k * d t : ℝ)) : ℂ) = 2 ^ k * (d t : ℂ)
    push_cast
    rfl

theorem real_free2 (i : Target) (thr : Thr) (hn : RealLen n) (d : ℕ → R) (e : Entry) (he : e ∈ [Entry.fwd, .fwd0, .fwdu, .fwdn]) :
    letI := i.arith R
    norm2 n (fun t => cval Rounded.val (rfftOut (Xmm R) thr e n (doubles d) t) - e.exact n (Spec.ofReal fun j => (d j).val) t) ≤
      (errWeight2 (n / 2) + 336) / 2 ^ 52 * (e.factor n * √n) * norm2 n (Spec.ofReal fun j => (d j).val) := by
  letI := i.arith R
  refine scale_free (P := fun (d : ℕ → R) A => norm2 n (Spec.ofReal fun j => (d j).val) ≤ A) (sm := fun k d t => ⟨2 ^ k * (d t).val⟩)
    (err := fun d => norm2 n (fun t => cval Rounded.val (rfftOut (Xmm R) thr e n (doubles d) t) - e.exact n (Spec.ofReal fun j => (d j).val) t))
    (fun k d A h => ?_) (fun v A A' hA h => le_trans h hA) (fun k d A h => ?_) (fun d A h1 h2 h => ?_) (norm2_nonneg _ _) le_rfl
  · rw [norm2_real_scale]
    exact mul_le_mul_of_nonneg_left h (by positivity)
  · refine err_scale2 (fun t ht => ?_) fun t => ?_
    · rw [← scl2_doubles]
      exact out_scl2 i thr .real (n := n) hn e k (doubles d) t ht
    · rw [← exact_scale]
      congr 1
      funext j
      show (((2 ^ k * (d j).val : ℝ)) : ℂ) = _
      push_cast
      rfl
  · have := (rfft_fwd_err rounded53_laws i thr hn (ge_960 h1) (rtA_le (by norm_num) (RealLen.le31 hn) (by linarith) h2) (fun t _ => trivial) h e he).2
    rw [mul_assoc]
    exact this

/-- the given part of a conjugate symmetric vector -/
def GivenHalf (n : ℕ) (v : ℕ → Xmm R) (X : ℕ → ℂ) : Prop := Spec.Hermitian n X ∧ ∀ t ≤ n / 2, X t = cval Rounded.val (v t)

theorem inverse_free2 (i : Target) (thr : Thr) (hn : RealLen n) {v : ℕ → Xmm R} {X : ℕ → ℂ} (hv : GivenHalf n v X)
    (e : Entry) (he : e ∈ [Entry.inv, .inv0, .invu, .invn]) :
    letI := i.arith R
    norm2 n (fun t => ((rfftOut (Xmm R) thr e n v t 0).val : ℂ) - e.exact n X t) ≤
      (errWeight2 (n / 2) + 336) / 2 ^ 52 * (e.factor n * √n) * norm2 n X := by
  letI := i.arith R
  refine scale_free (P := fun (v : (ℕ → Xmm R) × (ℕ → ℂ)) A => GivenHalf n v.1 v.2 ∧ norm2 n v.2 ≤ A)
    (sm := fun k v => (scl2 k v.1, fun t => 2 ^ k * v.2 t)) (v := (v, X))
    (err := fun v => norm2 n (fun t => ((rfftOut (Xmm R) thr e n v.1 t 0).val : ℂ) - e.exact n v.2 t))
    (fun k v A h => ⟨⟨fun j hj => ?_, fun t ht => ?_⟩, ?_⟩) (fun v A A' hA h => ⟨h.1, le_trans h.2 hA⟩)
    (fun k v A h => ?_) (fun v A h1 h2 h => ?_) (norm2_nonneg _ _) ⟨hv, le_rfl⟩
  · show 2 ^ k * v.2 ((n - j) % n) = (starRingEnd ℂ) (2 ^ k * v.2 j)
    rw [map_mul, h.1.1 j hj, map_zpow₀, map_ofNat]
  · show 2 ^ k * v.2 t = _
    rw [cval_scl2, h.1.2 t ht]
  · rw [norm2_smul n (norm_two_zpow k)]
    exact mul_le_mul_of_nonneg_left h.2 (by positivity)
  · refine err_scale2 (fun t ht => ?_) (exact_scale e n v.2 (2 ^ k))
    have h1 := congrArg Complex.re (out_scl2 i thr .real (n := n) hn e k v.1 t ht)
    have h2 : ((2:ℂ) ^ k) = (((2:ℝ) ^ k : ℝ) : ℂ) := by push_cast; rfl
    rw [h2, Complex.re_ofReal_mul] at h1
    have h1 : (rfftOut (Xmm R) thr e n (scl2 k v.1) t 0).val = 2 ^ k * (rfftOut (Xmm R) thr e n v.1 t 0).val := h1
    rw [h2, h1, Complex.ofReal_mul]
  · have hi := isInv_inv he
    obtain ⟨v, X⟩ := v
    obtain ⟨⟨hX, hXv⟩, hA⟩ := h
    have ok := twoArrays_ok n v
    have arr : Arr (twoArrays n v).heap (Ptr.base 1) (n / 2 + 1) v := fun j hj => ok.arr j (by
      have := hn.even; have := hn.pos; omega)
    have hb := (rfft_inv_err rounded53_laws i thr hn (ge_960 h1) (rtA_le (by norm_num) (RealLen.le31 hn) (by linarith) h2)
      (v := v) (fun t _ => ⟨trivial, trivial⟩) hX hXv hA e he).2
    have hc' := rfft_inv_computes i thr hn ok.wf arr ok.arr.alloc (twoArrays_alloc _ _) (twoArrays_sep _) e he
    have a : RealArgs (twoArrays n v) e n (Ptr.base 1) (Ptr.base 2) v :=
      ⟨ok.wf, hn, by rw [rfftNeed, hi]; exact arr, ok.arr.alloc, twoArrays_alloc _ _, twoArrays_sep _⟩
    have hc : ComputesIn (realFFT (Xmm R) thr) n [(e, Ptr.base 1, Ptr.base 2)] (twoArrays n v) (Region (Ptr.base 1) n) (Ptr.base 2) n
        (rfftOut (Xmm R) thr e n v) := by
      obtain ⟨h1, h2⟩ := RFFT.computes (thr := thr) a
      refine ⟨Act.wp_mono h1 ?_, h2⟩
      rintro ok w' ⟨a', b, c⟩
      refine ⟨a', fun hok => ⟨(b hok).1, fun l hl => (b hok).2 l fun h => hl ?_⟩, c⟩
      rw [rfftDirty, hi] at h
      rcases h with h | h | h
      · exact Or.inl h
      · exact Or.inr h
      · exact Or.inl h
    have heq := computesIn_unique (by simp [twoArrays]) hc hc'
    rw [mul_assoc]
    refine le_trans (le_of_eq (norm2_congr fun t ht => ?_)) hb
    have h3 : rfftOut (Xmm R) thr e n v t 0 = rfftOut (Xmm R) thr e n (mirror n v) t 0 := congrFun (heq t ht) 0
    show ((rfftOut (Xmm R) thr e n v t 0).val : ℂ) - _ = _
    rw [h3]

theorem dct_free2 (i : Target) (thr : Thr) (hn : RealLen n) (h30 : n < 2 ^ 30) (d : ℕ → R) (e : DctEntry) :
    letI := i.arith R
    norm2 n (Spec.ofReal fun t => (dctOut (Xmm R) thr e n (doubles d) t 0).val - e.exact n (fun j => (d j).val) t) ≤
      (if e ∈ [DctEntry.fwd, .fwd0, .fwdn] then (errWeight2 (n / 2) + 369) / 2 ^ 52 * (e.factor n * √n)
        else (errWeight2 (n / 2) + 1053) / 2 ^ 52 * (e.factor n * (√2 * √n))) * norm2 n (Spec.ofReal fun j => (d j).val) := by
  letI := i.arith R
  refine scale_free (P := fun (d : ℕ → R) A => norm2 n (Spec.ofReal fun j => (d j).val) ≤ A) (sm := fun k d t => ⟨2 ^ k * (d t).val⟩)
    (err := fun d => norm2 n (Spec.ofReal fun t => (dctOut (Xmm R) thr e n (doubles d) t 0).val - e.exact n (fun j => (d j).val) t))
    (fun k d A h => ?_) (fun v A A' hA h => le_trans h hA) (fun k d A h => ?_) (fun d A h1 h2 h => ?_) (norm2_nonneg _ _) le_rfl
  · rw [norm2_real_scale]
    exact mul_le_mul_of_nonneg_left h (by positivity)
  · rw [← norm2_real_scale]
    refine norm2_congr fun t ht => congrArg Complex.ofReal ?_
    have h1 := congrArg Complex.re (out_scl2 i thr .dct (n := n) hn e k (doubles d) t ht)
    have h2 : ((2:ℂ) ^ k) = (((2:ℝ) ^ k : ℝ) : ℂ) := by push_cast; rfl
    rw [h2, Complex.re_ofReal_mul, scl2_doubles] at h1
    have h1 : (dctOut (Xmm R) thr e n (doubles fun t => ⟨2 ^ k * (d t).val⟩) t 0).val = 2 ^ k * (dctOut (Xmm R) thr e n (doubles d) t 0).val := h1
    beta_reduce
    rw [h1, dct_scale, ← mul_sub]
  · have ok := oneArray_ok n (doubles d)
    obtain ⟨out', hc', -, hb⟩ := C62_dct rounded53_laws i thr hn h30 ok.wf ok.arr (ge_960 h1)
      (rtA_le (by norm_num) (RealLen.le31 hn) (by linarith) h2) (fun t _ => trivial) h e
    have hc := ComputesIn.toComputes (DCT.computes (thr := thr) ok.wf hn h30 ok.arr [e]) (Set.empty_subset _) (fun _ _ => rfl)
    have heq := computes_unique (by simp [oneArray]) hc hc'
    refine le_trans (le_of_eq (norm2_congr fun t ht => ?_)) (le_trans hb (le_of_eq ?_))
    · have h3 : dctOut (Xmm R) thr e n (doubles d) t 0 = out' t := congrFun (heq t ht) 0
      show ((((dctOut (Xmm R) thr e n (doubles d) t 0).val - e.exact n (fun j => (d j).val) t : ℝ)) : ℂ) = _
      rw [h3]
      rfl
    · split <;> ring

end free

/-! ### IEEE doubles -/

section
variable {n : ℕ} {w : World (Xmm Dbl64)} {wf : World (Xmm Flagged)} {x xf y yf : Ptr}

/-- C89: ComplexFFT with IEEE doubles, inputs of any size: if no overflow, underflow, division by zero or invalid operation was
signalled in the computation of the result, then it is finite and its relative error as a vector is at most `errWeight2 n · 2⁻⁵²`. -/
theorem C89_complex (i : Target) (thr : Thr) (hn : ValidLen n) {v : ℕ → Xmm Dbl64} (hx : UserArray w x n v)
    (hxf : UserArray wf xf n fun t j => Flagged.input (v t j)) (e : Entry) :
    letI := i.arith Dbl64
    letI := i.arith Flagged
    ∃ (out : ℕ → Xmm Dbl64) (outf : ℕ → Xmm Flagged), Computes (complexFFT (Xmm Dbl64) thr) n [(e, x)] w x n out ∧
      Computes (complexFFT (Xmm Flagged) thr) n [(e, xf)] wf xf n outf ∧ (∀ t < n, ∀ j, (outf t j).d = out t j) ∧
      ((∀ t < n, ∀ j, ¬ (outf t j).raised) → (∀ t < n, ∀ j, ¬ (out t j).notFinite) ∧
        norm2 n (fun t => cval Ieee.val (out t) - e.exact n (fun j => cval Ieee.val (v j)) t) ≤
          errWeight2 n / 2 ^ 52 * norm2 n (e.exact n fun j => cval Ieee.val (v j))) := by
  letI := i.arith Dbl64
  letI := i.arith Flagged
  letI := i.arith R
  have h2 := hn.two
  have h := flags_out i thr .complex (n := n) trivial e v _ (fun _ _ => rfl)
  refine ⟨_, _, ⟨FFT.calls (es := [e]) hn hx, FFT.lifetime_noFail _ (by omega) _ (lenNat_calls _)⟩,
    ⟨FFT.calls (es := [e]) hn hxf, FFT.lifetime_noFail _ (by omega) _ (lenNat_calls _)⟩, fun t ht j => (h t ht j).1, fun hq => ?_⟩
  refine ⟨fun t ht => (quiet_val (h t ht) (hq t ht)).1, ?_⟩
  have := complex_free2 i thr hn (vals v) e
  rw [mul_assoc] at this
  rw [exact_norm2 (by omega)]
  refine le_trans (le_of_eq (norm2_congr fun t ht => ?_)) this
  exact congrArg (fun z : ℂ => z - e.exact n (fun j => cval Ieee.val (v j)) t) (quiet_val (h t ht) (hq t ht)).2

/-- C89: Bluestein, with the bound of C69. -/
theorem C89_bluestein (i : Target) (thr : Thr) (h1 : 1 ≤ n) (h29 : n ≤ 2 ^ 29) {v : ℕ → Xmm Dbl64} (hx : UserArray w x n v)
    (hxf : UserArray wf xf n fun t j => Flagged.input (v t j)) (e : Entry) :
    letI := i.arith Dbl64
    letI := i.arith Flagged
    ∃ (out : ℕ → Xmm Dbl64) (outf : ℕ → Xmm Flagged), Computes (bluesteinFFT (Xmm Dbl64) thr) n [(e, x)] w x n out ∧
      Computes (bluesteinFFT (Xmm Flagged) thr) n [(e, xf)] wf xf n outf ∧ (∀ t < n, ∀ j, (outf t j).d = out t j) ∧
      ((∀ t < n, ∀ j, ¬ (outf t j).raised) → (∀ t < n, ∀ j, ¬ (out t j).notFinite) ∧
        norm2 n (fun t => cval Ieee.val (out t) - e.exact n (fun j => cval Ieee.val (v j)) t) ≤
          (165 * Nat.clog 2 n + 222) * (6 * √n) / 2 ^ 52 * norm2 n (e.exact n fun j => cval Ieee.val (v j))) := by
  letI := i.arith Dbl64
  letI := i.arith Flagged
  letI := i.arith R
  have h := flags_out i thr .bluestein (n := n) h29 e v _ (fun _ _ => rfl)
  refine ⟨_, _, ComputesIn.toComputes (Bluestein.computes (thr := thr) hx.wf h1 h29 hx.arr [e]) (Set.empty_subset _) (fun _ _ => rfl),
    ComputesIn.toComputes (Bluestein.computes (thr := thr) hxf.wf h1 h29 hxf.arr [e]) (Set.empty_subset _) (fun _ _ => rfl),
    fun t ht j => (h t ht j).1, fun hq => ?_⟩
  refine ⟨fun t ht => (quiet_val (h t ht) (hq t ht)).1, ?_⟩
  have := bluestein_free2 i thr h1 h29 (vals v) e
  rw [mul_assoc] at this
  rw [exact_norm2 h1]
  refine le_trans (le_of_eq (norm2_congr fun t ht => ?_)) this
  exact congrArg (fun z : ℂ => z - e.exact n (fun j => cval Ieee.val (v j)) t) (quiet_val (h t ht) (hq t ht)).2

/-- C89: RealFFT, forward, with the bound of C62. -/
theorem C89_real_forward (i : Target) (thr : Thr) (hn : RealLen n) {d : ℕ → Dbl64} (hw : w.WF) (hx : Arr w.heap x n (doubles d))
    (hy : Alloc w.heap y n) (hxy : Sep x n y n) (hwf : wf.WF) (hxf : Arr wf.heap xf n (doubles fun t => Flagged.input (d t)))
    (hyf : Alloc wf.heap yf n) (hxyf : Sep xf n yf n) (e : Entry) (he : e ∈ [Entry.fwd, .fwd0, .fwdu, .fwdn]) :
    letI := i.arith Dbl64
    letI := i.arith Flagged
    ∃ (out : ℕ → Xmm Dbl64) (outf : ℕ → Xmm Flagged), Computes (realFFT (Xmm Dbl64) thr) n [(e, x, y)] w y n out ∧
      Computes (realFFT (Xmm Flagged) thr) n [(e, xf, yf)] wf yf n outf ∧ (∀ t < n, ∀ j, (outf t j).d = out t j) ∧
      ((∀ t < n, ∀ j, ¬ (outf t j).raised) → (∀ t < n, ∀ j, ¬ (out t j).notFinite) ∧
        norm2 n (fun t => cval Ieee.val (out t) - e.exact n (Spec.ofReal fun j => (d j).val) t) ≤
          (errWeight2 (n / 2) + 336) / 2 ^ 52 * norm2 n (e.exact n (Spec.ofReal fun j => (d j).val))) := by
  letI := i.arith Dbl64
  letI := i.arith Flagged
  letI := i.arith R
  have hi := isInv_fwd he
  have a : RealArgs w e n x y (doubles d) := ⟨hw, hn, by rw [rfftNeed, hi]; exact hx, hx.alloc, hy, hxy⟩
  have af : RealArgs wf e n xf yf (doubles fun t => Flagged.input (d t)) := ⟨hwf, hn, by rw [rfftNeed, hi]; exact hxf, hxf.alloc, hyf, hxyf⟩
  have h := flags_out i thr .real (n := n) hn e (doubles d) _ (input_doubles d)
  refine ⟨_, _, ComputesIn.toComputes (RFFT.computes (thr := thr) a) (by rw [rfftDirty, hi]; exact le_refl _) (fun _ _ => rfl),
    ComputesIn.toComputes (RFFT.computes (thr := thr) af) (by rw [rfftDirty, hi]; exact le_refl _) (fun _ _ => rfl),
    fun t ht j => (h t ht j).1, fun hq => ?_⟩
  refine ⟨fun t ht => (quiet_val (h t ht) (hq t ht)).1, ?_⟩
  have := real_free2 i thr hn (fun t => ⟨(d t).val⟩) e he
  rw [mul_assoc] at this
  rw [exact_norm2 hn.pos]
  refine le_trans (le_of_eq (norm2_congr fun t ht => ?_)) this
  have h4 := (quiet_val (h t ht) (hq t ht)).2
  rw [vals_doubles] at h4
  exact congrArg (fun z : ℂ => z - e.exact n (Spec.ofReal fun j => (d j).val) t) h4

/-- C89: RealFFT, inverse, with the bound of C62. -/
theorem C89_real_inverse (i : Target) (thr : Thr) (hn : RealLen n) {v : ℕ → Xmm Dbl64} (hw : w.WF) (hx : Arr w.heap x (n / 2 + 1) v)
    (hx' : Alloc w.heap x n) (hy : Alloc w.heap y n) (hxy : Sep x n y n) (hwf : wf.WF)
    (hxf : Arr wf.heap xf (n / 2 + 1) fun t j => Flagged.input (v t j)) (hxf' : Alloc wf.heap xf n) (hyf : Alloc wf.heap yf n)
    (hxyf : Sep xf n yf n) {X : ℕ → ℂ} (hX : Spec.Hermitian n X)
    (hXv : ∀ t ≤ n / 2, X t = cval Ieee.val (v t)) (e : Entry) (he : e ∈ [Entry.inv, .inv0, .invu, .invn]) :
    letI := i.arith Dbl64
    letI := i.arith Flagged
    ∃ (out : ℕ → Dbl64) (outf : ℕ → Flagged),
      ComputesIn (realFFT (Xmm Dbl64) thr) n [(e, x, y)] w (Region x n) y n (doubles out) ∧
      ComputesIn (realFFT (Xmm Flagged) thr) n [(e, xf, yf)] wf (Region xf n) yf n (doubles outf) ∧ (∀ t < n, (outf t).d = out t) ∧
      ((∀ t < n, ¬ (outf t).raised) → (∀ t < n, ¬ (out t).notFinite) ∧
        norm2 n (fun t => ((out t).val : ℂ) - e.exact n X t) ≤ (errWeight2 (n / 2) + 336) / 2 ^ 52 * norm2 n (e.exact n X)) := by
  letI := i.arith Dbl64
  letI := i.arith Flagged
  letI := i.arith R
  have hi := isInv_inv he
  have run : ∀ {F : Type} [FArith F] [Inhabited F] {w : World (Xmm F)} {x y : Ptr} {v : ℕ → Xmm F} (hw : w.WF)
      (hx : Arr w.heap x (n / 2 + 1) v) (hx' : Alloc w.heap x n) (hy : Alloc w.heap y n) (hxy : Sep x n y n), letI := i.arith F
      ComputesIn (realFFT (Xmm F) thr) n [(e, x, y)] w (Region x n) y n (doubles fun t => rfftOut (Xmm F) thr e n v t 0) := by
    intro F _ _ w x y v hw hx hx' hy hxy
    letI := i.arith F
    have a : RealArgs w e n x y v := ⟨hw, hn, by rw [rfftNeed, hi]; exact hx, hx', hy, hxy⟩
    obtain ⟨h1, h2⟩ := RFFT.computes (thr := thr) a
    refine ⟨Act.wp_mono h1 ?_, h2⟩
    rintro ok w' ⟨a', b, c⟩
    refine ⟨a', fun hok => ⟨(b hok).1.congr fun t ht => (rfft_cell i thr hi n v t).symm, fun l hl => (b hok).2 l fun h => hl ?_⟩, c⟩
    rw [rfftDirty, hi] at h
    rcases h with h | h | h
    · exact Or.inl h
    · exact Or.inr h
    · exact Or.inl h
  have h := fun t ht => flags_out i thr .real (n := n) hn e v _ (fun _ _ => rfl) t ht 0
  have hz : ∀ t (ht : t < n), ¬ (rfftOut (Xmm Flagged) thr e n (fun t j => Flagged.input (v t j)) t 0).raised →
      ∃ z, rfftOut (Xmm Dbl64) thr e n v t 0 = ⟨.num (rfftOut (Xmm R) thr e n (vals v) t 0).val z⟩ := fun t ht hq => (h t ht).2 hq
  refine ⟨_, _, run hw hx hx' hy hxy, run hwf hxf hxf' hyf hxyf, fun t ht => (h t ht).1, fun hq => ⟨fun t ht => ?_, ?_⟩⟩
  · obtain ⟨z, ez⟩ := hz t ht (hq t ht)
    intro hf
    rw [ez] at hf
    exact hf _ _ rfl
  · have := inverse_free2 i thr hn (v := vals v) (X := X) ⟨hX, hXv⟩ e he
    rw [mul_assoc] at this
    rw [exact_norm2 hn.pos]
    refine le_trans (le_of_eq (norm2_congr fun t ht => ?_)) this
    obtain ⟨z, ez⟩ := hz t ht (hq t ht)
    rw [ez]
    rfl

/-- C89: RealDCT, with the bound of C62, relative to the 2-norm of the input. -/
theorem C89_dct (i : Target) (thr : Thr) (hn : RealLen n) (h30 : n < 2 ^ 30) {d : ℕ → Dbl64} (hx : UserArray w x n (doubles d))
    (hxf : UserArray wf xf n (doubles fun t => Flagged.input (d t))) (e : DctEntry) :
    letI := i.arith Dbl64
    letI := i.arith Flagged
    ∃ (out : ℕ → Dbl64) (outf : ℕ → Flagged), Computes (realDCT (Xmm Dbl64) thr) n [(e, x)] w x n (doubles out) ∧
      Computes (realDCT (Xmm Flagged) thr) n [(e, xf)] wf xf n (doubles outf) ∧ (∀ t < n, (outf t).d = out t) ∧
      ((∀ t < n, ¬ (outf t).raised) → (∀ t < n, ¬ (out t).notFinite) ∧
        norm2 n (Spec.ofReal fun t => (out t).val - e.exact n (fun j => (d j).val) t) ≤
          (if e ∈ [DctEntry.fwd, .fwd0, .fwdn] then (errWeight2 (n / 2) + 369) / 2 ^ 52 * (e.factor n * √n)
            else (errWeight2 (n / 2) + 1053) / 2 ^ 52 * (e.factor n * (√2 * √n))) * norm2 n (Spec.ofReal fun j => (d j).val)) := by
  letI := i.arith Dbl64
  letI := i.arith Flagged
  letI := i.arith R
  have c1 := fun t => (dct_cell (F := Dbl64) i thr e n (v := doubles d) (t := t) ⟨_, rfl⟩).1
  have c2 := fun t => (dct_cell (F := Flagged) i thr e n (v := doubles fun t => Flagged.input (d t)) (t := t) ⟨_, rfl⟩).1
  have h := fun t ht => flags_out i thr .dct (n := n) hn e (doubles d) _ (input_doubles d) t ht 0
  have hz : ∀ t (ht : t < n), ¬ (dctOut (Xmm Flagged) thr e n (doubles fun t => Flagged.input (d t)) t 0).raised →
      ∃ z, dctOut (Xmm Dbl64) thr e n (doubles d) t 0 = ⟨.num (dctOut (Xmm R) thr e n (vals (doubles d)) t 0).val z⟩ :=
    fun t ht hq => (h t ht).2 hq
  refine ⟨fun t => dctOut (Xmm Dbl64) thr e n (doubles d) t 0, fun t => dctOut (Xmm Flagged) thr e n (doubles fun t => Flagged.input (d t)) t 0,
    ComputesIn.toComputes (DCT.computes (thr := thr) hx.wf hn h30 hx.arr [e]) (Set.empty_subset _) (fun t _ => (c1 t).symm),
    ComputesIn.toComputes (DCT.computes (thr := thr) hxf.wf hn h30 hxf.arr [e]) (Set.empty_subset _) (fun t _ => (c2 t).symm),
    fun t ht => (h t ht).1, fun hq => ⟨fun t ht => ?_, ?_⟩⟩
  · obtain ⟨z, ez⟩ := hz t ht (hq t ht)
    intro hf
    beta_reduce at hf
    rw [ez] at hf
    exact hf _ _ rfl
  · refine le_trans (le_of_eq (norm2_congr fun t ht => congrArg Complex.ofReal ?_)) (dct_free2 i thr hn h30 (fun t => ⟨(d t).val⟩) e)
    obtain ⟨z, ez⟩ := hz t ht (hq t ht)
    beta_reduce
    rw [ez, vals_doubles]
    rfl

end

/-! ### Examples -/

omit [Libm] in
theorem two_out {F : Type} [FArith F] (i : Target) (thr : Thr) (v : ℕ → Xmm F) :
    letI := i.arith F
    fftOut (Xmm F) thr Entry.fwd0.isInv Entry.fwd0.mode 2 v 0 = addpz (v 0) (v 1) ∧
    fftOut (Xmm F) thr Entry.fwd0.isInv Entry.fwd0.mode 2 v 1 = subpz (v 0) (v 1) := by
  let := i.arith F
  have hd : dispatch (logOf 2) = some (.stock true .r4) := by
    rw [show 2 = 2 ^ 1 from rfl, logOf_pow]; rfl
  unfold fftOut
  rw [hd]
  constructor
  · show ditRec 4 _ _ _ _ 2 1 v 0 = _
    rw [ditRec.eq_def]; rfl
  · show ditRec 4 _ _ _ _ 2 1 v 1 = _
    rw [ditRec.eq_def]; rfl

/-- two samples of size `2^k`: no part of the result of `fwd0` has a flag -/
theorem two_quiet (i : Target) (thr : Thr) {k : ℕ} (hk : k ≤ 1022) :
    letI := i.arith Flagged
    ∀ t < 2, ∀ j, ¬ (fftOut (Xmm Flagged) thr Entry.fwd0.isInv Entry.fwd0.mode 2
      (fun _ j => Flagged.input ((![⟨.num (2 ^ k) false⟩, ⟨.num 0 false⟩] : Xmm Dbl64) j)) t j).raised := by
  let := i.arith Flagged
  have e1 : (2:ℝ) ^ k + 2 ^ k = ((2:ℤ):ℝ) * 2 ^ (k:ℤ) := by push_cast; rw [zpow_natCast]; ring
  have r1 : rnd64 ((2:ℝ) ^ k + 2 ^ k) = 2 ^ k + 2 ^ k := by rw [e1]; exact rnd64_repr (by norm_num) (by omega)
  have top : (2:ℝ) ^ k + 2 ^ k ≤ maxDbl := by
    have h := pow_le_pow_right₀ (show (1:ℝ) ≤ 2 by norm_num) hk
    unfold maxDbl
    rw [show (2:ℝ) ^ 1023 = 2 * 2 ^ 1022 by rw [show (1023:ℕ) = 1 + 1022 from rfl, pow_add]; norm_num]
    have : (0:ℝ) < 2 ^ 1022 := by positivity
    generalize (2:ℝ) ^ 1022 = a at *
    generalize (2:ℝ) ^ k = b at *
    norm_num
    linarith
  have pos : (0:ℝ) < 2 ^ k := by positivity
  clear e1
  generalize (2:ℝ) ^ k = A at *
  have hadd : ∀ (a b : Xmm Flagged) j, (addpz a b : Xmm Flagged) j = fadd (a j) (b j) := fun a b j => by
    show (i.xmm Flagged).addpz a b j = _
    unfold Target.xmm
    match j with
    | 0 | 1 => split; · split <;> rfl
               · rfl
  have hsub : ∀ (a b : Xmm Flagged) j, (subpz a b : Xmm Flagged) j = fsub (a j) (b j) := fun a b j => by
    show (i.xmm Flagged).subpz a b j = _
    unfold Target.xmm
    match j with
    | 0 | 1 => split; · split <;> rfl
               · rfl
  have num : ∀ x z, rnd64 x = x → |x| ≤ maxDbl → ∃ z', (⟨Dbl.rnd rnd64 maxDbl x z⟩ : Dbl64) = ⟨.num x z'⟩ := fun x z hx hb => by
    unfold Dbl.rnd
    rw [hx, if_neg (not_lt.2 hb)]
    split
    · exact ⟨_, by rw [‹x = 0›]⟩
    · exact ⟨_, rfl⟩
  have nr : ∀ x z, rnd64 x = x → |x| ≤ maxDbl → ¬ raises x ⟨Dbl.rnd rnd64 maxDbl x z⟩ := fun x z hx hb h => by
    rcases h with h | ⟨-, h⟩
    · obtain ⟨z', e⟩ := num x z hx hb
      exact h x z' (congrArg Ieee.d e)
    · exact h hx
  have b0 : |(0:ℝ)| ≤ maxDbl := by rw [abs_zero]; unfold maxDbl; norm_num
  have bA : |A + A| ≤ maxDbl := by rw [abs_of_pos (by linarith)]; exact top
  have hin : ∀ x, ¬ (Flagged.input (⟨.num x false⟩ : Dbl64)).raised := fun x h => h _ _ rfl
  have h := two_out (F := Flagged) i thr (fun _ j => Flagged.input ((![⟨.num A false⟩, ⟨.num 0 false⟩] : Xmm Dbl64) j))
  intro t ht j
  rcases t with _ | _ | t
  · rw [h.1, hadd]
    match j with
    | 0 =>
      rintro (h | h | h)
      · exact hin A h
      · exact hin A h
      · exact nr (A + A) _ r1 bA h
    | 1 =>
      rintro (h | h | h)
      · exact hin 0 h
      · exact hin 0 h
      · exact nr (0 + 0) _ (by rw [add_zero, rnd64_zero]) (by rw [add_zero]; exact b0) h
  · rw [zero_add, h.2, hsub]
    match j with
    | 0 =>
      rintro (h | h | h)
      · exact hin A h
      · exact hin A h
      · exact nr (A - A) _ (by rw [sub_self, rnd64_zero]) (by rw [sub_self]; exact b0) h
    | 1 =>
      rintro (h | h | h)
      · exact hin 0 h
      · exact hin 0 h
      · exact nr (0 - 0) _ (by rw [sub_self, rnd64_zero]) (by rw [sub_self]; exact b0) h
  · omega

/-- samples of size `2^1022`, beyond the range of C58: no flag anywhere, so the error bound holds -/
example (i : Target) (thr : Thr) : letI := i.arith Dbl64
    ∃ out : ℕ → Xmm Dbl64,
      Computes (complexFFT (Xmm Dbl64) thr) 2 [(.fwd0, Ptr.base 1)] (oneArray 2 fun _ => ![⟨.num (2 ^ 1022) false⟩, ⟨.num 0 false⟩]) (Ptr.base 1) 2 out ∧
      (∀ t < 2, ∀ j, ¬ (out t j).notFinite) ∧
      norm2 2 (fun t => cval Ieee.val (out t) - Entry.exact 2 .fwd0 (fun _ => cval Ieee.val (![⟨.num (2 ^ 1022) false⟩, ⟨.num 0 false⟩] : Xmm Dbl64)) t) ≤
          errWeight2 2 / 2 ^ 52 * norm2 2 (Entry.exact 2 .fwd0 fun _ => cval Ieee.val (![⟨.num (2 ^ 1022) false⟩, ⟨.num 0 false⟩] : Xmm Dbl64)) := by
  let := i.arith Dbl64
  let := i.arith Flagged
  have h2 : ValidLen 2 := validLen_of_le (by omega) (by omega)
  obtain ⟨out, outf, c, cf, -, h⟩ := C89_complex i thr h2
    (oneArray_ok 2 fun _ => (![⟨.num (2 ^ 1022) false⟩, ⟨.num 0 false⟩] : Xmm Dbl64))
    (oneArray_ok 2 fun _ j => Flagged.input ((![⟨.num (2 ^ 1022) false⟩, ⟨.num 0 false⟩] : Xmm Dbl64) j)) .fwd0
  refine ⟨out, c, h fun t ht j => ?_⟩
  have cf' : Computes (complexFFT (Xmm Flagged) thr) 2 [(.fwd0, Ptr.base 1)]
      (oneArray 2 fun _ j => Flagged.input ((![⟨.num (2 ^ 1022) false⟩, ⟨.num 0 false⟩] : Xmm Dbl64) j)) (Ptr.base 1) 2 _ :=
    ⟨FFT.calls (es := [.fwd0]) h2 (oneArray_ok 2 _), FFT.lifetime_noFail _ (by omega) _ (lenNat_calls _)⟩
  rw [computes_unique (by simp [oneArray]) cf cf' t ht]
  exact two_quiet i thr (le_refl 1022) t ht j

end OTFFT.Props
