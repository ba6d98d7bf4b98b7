/-
C82: IEEE 754 doubles behave like real numbers that are rounded after every operation, as long as the input is not too large.
-/
import Verif.Proof.Exact64
import Verif.Props.FlagsAccuracy
import Verif.Props.NormalReal

namespace OTFFT.Props

variable [Libm]

/-- the values of doubles, as numbers that are rounded like doubles but have no largest value -/
noncomputable def vals64 (v : ℕ → Xmm Dbl64) : ℕ → Xmm (Rounded rnd64) := fun t j => ⟨(v t j).val⟩

noncomputable def twin (v : ℕ → Xmm Dbl64) : ℕ → Xmm Twin := fun t j => ⟨v t j, ⟨(v t j).val⟩⟩

omit [Libm] in
theorem twin_cval (v : ℕ → Xmm Dbl64) (t : ℕ) : cval Twin.val (twin v t) = cval Ieee.val (v t) := rfl

omit [Libm] in
theorem twin_fin {v : ℕ → Xmm Dbl64} {t : ℕ} (h : cfin Dbl64.Finite (v t)) : cfin Twin.Same (twin v t) := ⟨⟨h.1, rfl⟩, h.2, rfl⟩

theorem twin_out (i : Target) (thr : Thr) (k : Kind) {n : ℕ} (hn : lenOK k n) (f : k.Fn) (v : ℕ → Xmm Dbl64) {t : ℕ} (ht : t < n) (j : Fin 2) :
    letI := i.arith Dbl64
    letI := i.arith Twin
    letI := i.arith (Rounded rnd64)
    (k.out (Xmm Twin) thr n f (twin v) t j).Same →
      Dbl64.Finite (k.out (Xmm Dbl64) thr n f v t j) ∧
      (k.out (Xmm Dbl64) thr n f v t j).val = (k.out (Xmm (Rounded rnd64)) thr n f (vals64 v) t j).val := by
  letI := i.arith Dbl64
  letI := i.arith Twin
  letI := i.arith (Rounded rnd64)
  have h1 := out_par (Target.parLaws linked_twin_d i) thr k hn f (v := twin v) (v' := v) (fun t _ => ⟨rfl, rfl⟩) t ht
  have h2 := out_par (Target.parLaws linked_twin_r i) thr k hn f (v := twin v) (v' := vals64 v) (fun t _ => ⟨rfl, rfl⟩) t ht
  have e1 : (k.out (Xmm Twin) thr n f (twin v) t j).d = k.out (Xmm Dbl64) thr n f v t j := by
    match j with
    | 0 => exact h1.1
    | 1 => exact h1.2
  have e2 : (k.out (Xmm Twin) thr n f (twin v) t j).r = k.out (Xmm (Rounded rnd64)) thr n f (vals64 v) t j := by
    match j with
    | 0 => exact h2.1
    | 1 => exact h2.2
  rintro ⟨hf, hv⟩
  rw [e1] at hf hv
  rw [e2] at hv
  exact ⟨hf, hv⟩

theorem fofNat_zero : (fofNat 0 : Dbl64) = ⟨.num 0 false⟩ := by
  show (⟨Dbl.rnd rnd64 maxDbl ((0:ℕ):ℝ) false⟩ : Dbl64) = _
  unfold Dbl.rnd
  rw [Nat.cast_zero, rnd64_zero, abs_zero, if_neg (not_lt.2 (by unfold maxDbl; norm_num)), if_pos rfl]

theorem vals64_doubles (d : ℕ → Dbl64) : vals64 (doubles d) = doubles fun t => ⟨(d t).val⟩ := by
  funext t j
  match j with
  | 0 => rfl
  | 1 =>
    show (⟨Ieee.val (fofNat 0 : Dbl64)⟩ : Rounded rnd64) = ⟨((0:ℕ):ℝ)⟩
    rw [fofNat_zero, Nat.cast_zero]
    rfl

theorem twin_doubles (d : ℕ → Dbl64) : twin (doubles d) = doubles fun t => ⟨d t, ⟨(d t).val⟩⟩ := by
  funext t j
  match j with
  | 0 => rfl
  | 1 =>
    show (⟨fofNat 0, ⟨Ieee.val (fofNat 0 : Dbl64)⟩⟩ : Twin) = ⟨fofNat 0, ⟨((0:ℕ):ℝ)⟩⟩
    rw [fofNat_zero, Nat.cast_zero]
    rfl

section
variable {n : ℕ} {M : ℝ}

theorem same_complex (i : Target) (thr : Thr) (hn : ValidLen n) {v : ℕ → Xmm Dbl64} (hM : n * M ≤ 2 ^ 1019)
    (hv : ∀ t < n, cfin Dbl64.Finite (v t) ∧ ‖cval Ieee.val (v t)‖ ≤ M) (e : Entry) {t : ℕ} (ht : t < n) (j : Fin 2) :
    letI := i.arith Dbl64
    letI := i.arith (Rounded rnd64)
    Dbl64.Finite (fftOut (Xmm Dbl64) thr e.isInv e.mode n v t j) ∧
      (fftOut (Xmm Dbl64) thr e.isInv e.mode n v t j).val = (fftOut (Xmm (Rounded rnd64)) thr e.isInv e.mode n (vals64 v) t j).val := by
  letI := i.arith Dbl64
  letI := i.arith (Rounded rnd64)
  letI := i.arith Twin
  have h := (fftOut_err twin_binary64 i hn.two hn.int.le (le_max_right M _)
    (floorM hn.int.le (pow_le_pow_right₀ (by norm_num) (by norm_num)) hM)
    (fun t ht => ⟨twin_fin (hv t ht).1, by rw [twin_cval]; exact le_trans (hv t ht).2 (le_max_left _ _)⟩) thr e t ht).1
  refine twin_out i thr .complex trivial e v ht j ?_
  match j with
  | 0 => exact h.1
  | 1 => exact h.2

omit [Libm] in
theorem floor3 (h29 : n ≤ 2 ^ 29) (hM : n * (n * (n * M)) ≤ 2 ^ 1013) : n * (n * (n * max M (1 / 2 ^ 970))) ≤ (2:ℝ) ^ 1013 := by
  rcases le_total M (1 / 2 ^ 970) with h | h
  · have hn' : (n:ℝ) ≤ 2 ^ 29 := by exact_mod_cast h29
    rw [max_eq_right h]
    have h2 : (1:ℝ) / 2 ^ 970 ≤ 1 := div_le_one_of_le₀ (one_le_pow₀ (by norm_num)) (by positivity)
    calc n * (n * (n * ((1:ℝ) / 2 ^ 970))) ≤ 2 ^ 29 * (2 ^ 29 * (2 ^ 29 * 1)) := by gcongr
      _ = 2 ^ 87 := by norm_num
      _ ≤ _ := pow_le_pow_right₀ (by norm_num) (by norm_num)
  · rwa [max_eq_left h]

theorem same_bluestein (i : Target) (thr : Thr) (h1 : 1 ≤ n) (h29 : n ≤ 2 ^ 29) {v : ℕ → Xmm Dbl64} (hM : n * (n * (n * M)) ≤ 2 ^ 1013)
    (hv : ∀ t < n, cfin Dbl64.Finite (v t) ∧ ‖cval Ieee.val (v t)‖ ≤ M) (e : Entry) {t : ℕ} (ht : t < n) (j : Fin 2) :
    letI := i.arith Dbl64
    letI := i.arith (Rounded rnd64)
    Dbl64.Finite (blueOutF (Xmm Dbl64) thr e n v t j) ∧
      (blueOutF (Xmm Dbl64) thr e n v t j).val = (blueOutF (Xmm (Rounded rnd64)) thr e n (vals64 v) t j).val := by
  letI := i.arith Dbl64
  letI := i.arith (Rounded rnd64)
  letI := i.arith Twin
  have h := (blueOut_err twin_binary64 i h1 h29 (le_max_right M _) (floor3 h29 hM)
    (fun t ht => ⟨twin_fin (hv t ht).1, by rw [twin_cval]; exact le_trans (hv t ht).2 (le_max_left _ _)⟩) thr e t ht).1
  refine twin_out i thr .bluestein h29 e v ht j ?_
  match j with
  | 0 => exact h.1
  | 1 => exact h.2

theorem same_real (i : Target) (thr : Thr) (hn : RealLen n) {d : ℕ → Dbl64} (hM : n * M ≤ 2 ^ 1016)
    (hd : ∀ t < n, Dbl64.Finite (d t) ∧ |(d t).val| ≤ M) (e : Entry) (he : e ∈ [Entry.fwd, .fwd0, .fwdu, .fwdn]) {t : ℕ} (ht : t < n)
    (j : Fin 2) :
    letI := i.arith Dbl64
    letI := i.arith (Rounded rnd64)
    Dbl64.Finite (rfftOut (Xmm Dbl64) thr e n (doubles d) t j) ∧
      (rfftOut (Xmm Dbl64) thr e n (doubles d) t j).val =
        (rfftOut (Xmm (Rounded rnd64)) thr e n (doubles fun t => ⟨(d t).val⟩) t j).val := by
  letI := i.arith Dbl64
  letI := i.arith (Rounded rnd64)
  letI := i.arith Twin
  have hi := isInv_fwd he
  have ok := twoArrays_ok n (twin (doubles d))
  have ok' := ok
  rw [twin_doubles] at ok'
  obtain ⟨out', hc', hb⟩ := C47_real_forward twin_binary64 i thr hn ok'.wf ok'.arr (twoArrays_alloc _ _) (twoArrays_sep _) (le_max_right M _)
    (floorM (RealLen.le31 hn) (pow_le_pow_right₀ (by norm_num) (by norm_num)) hM)
    (fun t ht => ⟨⟨(hd t ht).1, rfl⟩, le_trans (hd t ht).2 (le_max_left _ _)⟩) e he
  rw [← twin_doubles] at hc'
  have a : RealArgs (twoArrays n (twin (doubles d))) e n (Ptr.base 1) (Ptr.base 2) (twin (doubles d)) :=
    ⟨ok.wf, hn, by rw [rfftNeed, hi]; exact ok.arr, ok.arr.alloc, twoArrays_alloc _ _, twoArrays_sep _⟩
  have hc := ComputesIn.toComputes (RFFT.computes (thr := thr) a) (by rw [rfftDirty, hi]; exact le_refl _) (fun _ _ => rfl)
  have hu := computes_unique (by simp [twoArrays]) hc hc' t ht
  rw [← vals64_doubles]
  refine twin_out i thr .real hn e (doubles d) ht j ?_
  have hu : Kind.real.out (Xmm Twin) thr n e (twin (doubles d)) t = out' t := hu
  rw [hu]
  match j with
  | 0 => exact (hb t ht).1.1
  | 1 => exact (hb t ht).1.2

theorem same_inverse (i : Target) (thr : Thr) (hn : RealLen n) {v : ℕ → Xmm Dbl64} (hM : n * M ≤ 2 ^ 1016)
    (hv : ∀ t ≤ n / 2, cfin Dbl64.Finite (v t) ∧ ‖cval Ieee.val (v t)‖ ≤ M) {X : ℕ → ℂ} (hX : Spec.Hermitian n X)
    (hXv : ∀ t ≤ n / 2, X t = cval Ieee.val (v t)) (e : Entry) (he : e ∈ [Entry.inv, .inv0, .invu, .invn]) {t : ℕ} (ht : t < n) :
    letI := i.arith Dbl64
    letI := i.arith (Rounded rnd64)
    Dbl64.Finite (rfftOut (Xmm Dbl64) thr e n v t 0) ∧
      (rfftOut (Xmm Dbl64) thr e n v t 0).val = (rfftOut (Xmm (Rounded rnd64)) thr e n (vals64 v) t 0).val := by
  letI := i.arith Dbl64
  letI := i.arith (Rounded rnd64)
  letI := i.arith Twin
  have hi := isInv_inv he
  have ok := twoArrays_ok n (twin v)
  have arr : Arr (twoArrays n (twin v)).heap (Ptr.base 1) (n / 2 + 1) (twin v) := fun j hj => ok.arr j (by
    have := hn.even; have := hn.pos; omega)
  obtain ⟨out', hc', hb⟩ := C47_real_inverse twin_binary64 i thr hn ok.wf arr ok.arr.alloc (twoArrays_alloc _ _) (twoArrays_sep _) (le_max_right M _)
    (floorM (RealLen.le31 hn) (pow_le_pow_right₀ (by norm_num) (by norm_num)) hM)
    (fun t ht => ⟨twin_fin (hv t ht).1, by rw [twin_cval]; exact le_trans (hv t ht).2 (le_max_left _ _)⟩) hX hXv e he
  have a : RealArgs (twoArrays n (twin v)) e n (Ptr.base 1) (Ptr.base 2) (twin v) :=
    ⟨ok.wf, hn, by rw [rfftNeed, hi]; exact arr, ok.arr.alloc, twoArrays_alloc _ _, twoArrays_sep _⟩
  have hc : ComputesIn (realFFT (Xmm Twin) thr) n [(e, Ptr.base 1, Ptr.base 2)] (twoArrays n (twin v)) (Region (Ptr.base 1) n) (Ptr.base 2) n
      (rfftOut (Xmm Twin) thr e n (twin v)) := by
    obtain ⟨h1, h2⟩ := RFFT.computes (thr := thr) a
    refine ⟨Act.wp_mono h1 ?_, h2⟩
    rintro ok w' ⟨a', b, c⟩
    refine ⟨a', fun hok => ⟨(b hok).1, fun l hl => (b hok).2 l fun h => hl ?_⟩, c⟩
    rw [rfftDirty, hi] at h
    rcases h with h | h | h
    · exact Or.inl h
    · exact Or.inr h
    · exact Or.inl h
  have hu := computesIn_unique (by simp [twoArrays]) hc hc' t ht
  refine twin_out i thr .real hn e v ht 0 ?_
  have hu : Kind.real.out (Xmm Twin) thr n e (twin v) t = doubles out' t := hu
  rw [hu]
  exact (hb t ht).1

theorem same_dct (i : Target) (thr : Thr) (hn : RealLen n) (h30 : n < 2 ^ 30) {d : ℕ → Dbl64} (hM : n * M ≤ 2 ^ 1016)
    (hd : ∀ t < n, Dbl64.Finite (d t) ∧ |(d t).val| ≤ M) (e : DctEntry) {t : ℕ} (ht : t < n) :
    letI := i.arith Dbl64
    letI := i.arith (Rounded rnd64)
    Dbl64.Finite (dctOut (Xmm Dbl64) thr e n (doubles d) t 0) ∧
      (dctOut (Xmm Dbl64) thr e n (doubles d) t 0).val =
        (dctOut (Xmm (Rounded rnd64)) thr e n (doubles fun t => ⟨(d t).val⟩) t 0).val := by
  letI := i.arith Dbl64
  letI := i.arith (Rounded rnd64)
  letI := i.arith Twin
  have ok := oneArray_ok n (twin (doubles d))
  have ok' := ok
  rw [twin_doubles] at ok'
  obtain ⟨out', hc', hb⟩ := C47_dct twin_binary64 i thr hn h30 ok'.wf ok'.arr (le_max_right M _)
    (floorM (RealLen.le31 hn) (pow_le_pow_right₀ (by norm_num) (by norm_num)) hM)
    (fun t ht => ⟨⟨(hd t ht).1, rfl⟩, le_trans (hd t ht).2 (le_max_left _ _)⟩) e
  rw [← twin_doubles] at hc'
  have hc := ComputesIn.toComputes (DCT.computes (thr := thr) ok.wf hn h30 ok.arr [e]) (Set.empty_subset _) (fun _ _ => rfl)
  have hu := computes_unique (by simp [oneArray]) hc hc' t ht
  rw [← vals64_doubles]
  refine twin_out i thr .dct hn e (doubles d) ht 0 ?_
  have hu : Kind.dct.out (Xmm Twin) thr n e (twin (doubles d)) t = doubles out' t := hu
  rw [hu]
  exact (hb t ht).1

end

/-! ### C82 -/

section
variable {n : ℕ} {M : ℝ} {w : World (Xmm Dbl64)} {wr : World (Xmm (Rounded rnd64))} {x xr y yr : Ptr}

/-- C82: ComplexFFT with IEEE doubles whose size is at most `2^1019 / n`, and the same call with real numbers that are rounded to the
nearest multiple of the last place of a double after every operation but may be arbitrarily large: the doubles in the result are
finite and have the same values. -/
theorem C82_complex (i : Target) (thr : Thr) (hn : ValidLen n) {v : ℕ → Xmm Dbl64} (hx : UserArray w x n v)
    (hxr : UserArray wr xr n fun t j => ⟨(v t j).val⟩) (hM : n * M ≤ 2 ^ 1019)
    (hv : ∀ t < n, cfin Dbl64.Finite (v t) ∧ ‖cval Ieee.val (v t)‖ ≤ M) (e : Entry) :
    letI := i.arith Dbl64
    letI := i.arith (Rounded rnd64)
    ∃ (out : ℕ → Xmm Dbl64) (outr : ℕ → Xmm (Rounded rnd64)), Computes (complexFFT (Xmm Dbl64) thr) n [(e, x)] w x n out ∧
      Computes (complexFFT (Xmm (Rounded rnd64)) thr) n [(e, xr)] wr xr n outr ∧
      ∀ t < n, ∀ j, Dbl64.Finite (out t j) ∧ (out t j).val = (outr t j).val := by
  letI := i.arith Dbl64
  letI := i.arith (Rounded rnd64)
  have h2 := hn.two
  exact ⟨_, _, ⟨FFT.calls (es := [e]) hn hx, FFT.lifetime_noFail _ (by omega) _ (lenNat_calls _)⟩,
    ⟨FFT.calls (es := [e]) hn hxr, FFT.lifetime_noFail _ (by omega) _ (lenNat_calls _)⟩, fun t ht j => same_complex i thr hn hM hv e ht j⟩

/-- C82: Bluestein; the doubles are at most `2^1013 / n³`. -/
theorem C82_bluestein (i : Target) (thr : Thr) (h1 : 1 ≤ n) (h29 : n ≤ 2 ^ 29) {v : ℕ → Xmm Dbl64} (hx : UserArray w x n v)
    (hxr : UserArray wr xr n fun t j => ⟨(v t j).val⟩) (hM : n * (n * (n * M)) ≤ 2 ^ 1013)
    (hv : ∀ t < n, cfin Dbl64.Finite (v t) ∧ ‖cval Ieee.val (v t)‖ ≤ M) (e : Entry) :
    letI := i.arith Dbl64
    letI := i.arith (Rounded rnd64)
    ∃ (out : ℕ → Xmm Dbl64) (outr : ℕ → Xmm (Rounded rnd64)), Computes (bluesteinFFT (Xmm Dbl64) thr) n [(e, x)] w x n out ∧
      Computes (bluesteinFFT (Xmm (Rounded rnd64)) thr) n [(e, xr)] wr xr n outr ∧
      ∀ t < n, ∀ j, Dbl64.Finite (out t j) ∧ (out t j).val = (outr t j).val := by
  letI := i.arith Dbl64
  letI := i.arith (Rounded rnd64)
  exact ⟨_, _, ComputesIn.toComputes (Bluestein.computes (thr := thr) hx.wf h1 h29 hx.arr [e]) (Set.empty_subset _) (fun _ _ => rfl),
    ComputesIn.toComputes (Bluestein.computes (thr := thr) hxr.wf h1 h29 hxr.arr [e]) (Set.empty_subset _) (fun _ _ => rfl),
    fun t ht j => same_bluestein i thr h1 h29 hM hv e ht j⟩

/-- C82: RealFFT, forward; the doubles are at most `2^1016 / n`. -/
theorem C82_real_forward (i : Target) (thr : Thr) (hn : RealLen n) {d : ℕ → Dbl64} (hw : w.WF) (hx : Arr w.heap x n (doubles d))
    (hy : Alloc w.heap y n) (hxy : Sep x n y n) (hwr : wr.WF) (hxr : Arr wr.heap xr n (doubles fun t => ⟨(d t).val⟩))
    (hyr : Alloc wr.heap yr n) (hxyr : Sep xr n yr n) (hM : n * M ≤ 2 ^ 1016) (hd : ∀ t < n, Dbl64.Finite (d t) ∧ |(d t).val| ≤ M)
    (e : Entry) (he : e ∈ [Entry.fwd, .fwd0, .fwdu, .fwdn]) :
    letI := i.arith Dbl64
    letI := i.arith (Rounded rnd64)
    ∃ (out : ℕ → Xmm Dbl64) (outr : ℕ → Xmm (Rounded rnd64)), Computes (realFFT (Xmm Dbl64) thr) n [(e, x, y)] w y n out ∧
      Computes (realFFT (Xmm (Rounded rnd64)) thr) n [(e, xr, yr)] wr yr n outr ∧
      ∀ t < n, ∀ j, Dbl64.Finite (out t j) ∧ (out t j).val = (outr t j).val := by
  letI := i.arith Dbl64
  letI := i.arith (Rounded rnd64)
  have hi := isInv_fwd he
  have a : RealArgs w e n x y (doubles d) := ⟨hw, hn, by rw [rfftNeed, hi]; exact hx, hx.alloc, hy, hxy⟩
  have ar : RealArgs wr e n xr yr (doubles fun t => ⟨(d t).val⟩) := ⟨hwr, hn, by rw [rfftNeed, hi]; exact hxr, hxr.alloc, hyr, hxyr⟩
  exact ⟨_, _, ComputesIn.toComputes (RFFT.computes (thr := thr) a) (by rw [rfftDirty, hi]; exact le_refl _) (fun _ _ => rfl),
    ComputesIn.toComputes (RFFT.computes (thr := thr) ar) (by rw [rfftDirty, hi]; exact le_refl _) (fun _ _ => rfl),
    fun t ht j => same_real i thr hn hM hd e he ht j⟩

omit [Libm] in
theorem inv_run {F : Type} [FArith F] [Inhabited F] (i : Target) (thr : Thr) (hn : RealLen n) {w : World (Xmm F)} {x y : Ptr}
    {v : ℕ → Xmm F} (hw : w.WF) (hx : Arr w.heap x (n / 2 + 1) v) (hx' : Alloc w.heap x n) (hy : Alloc w.heap y n) (hxy : Sep x n y n)
    (e : Entry) (he : e ∈ [Entry.inv, .inv0, .invu, .invn]) :
    letI := i.arith F
    ComputesIn (realFFT (Xmm F) thr) n [(e, x, y)] w (Region x n) y n (doubles fun t => rfftOut (Xmm F) thr e n v t 0) := by
  letI := i.arith F
  have hi := isInv_inv he
  have a : RealArgs w e n x y v := ⟨hw, hn, by rw [rfftNeed, hi]; exact hx, hx', hy, hxy⟩
  obtain ⟨h1, h2⟩ := RFFT.computes (thr := thr) a
  refine ⟨Act.wp_mono h1 ?_, h2⟩
  rintro ok w' ⟨a', b, c⟩
  refine ⟨a', fun hok => ⟨(b hok).1.congr fun t ht => (rfft_cell i thr hi n v t).symm, fun l hl => (b hok).2 l fun h => hl ?_⟩, c⟩
  rw [rfftDirty, hi] at h
  rcases h with h | h | h
  · exact Or.inl h
  · exact Or.inr h
  · exact Or.inl h

/-- C82: RealFFT, inverse, for half a conjugate symmetric spectrum; the doubles are at most `2^1016 / n`. -/
theorem C82_real_inverse (i : Target) (thr : Thr) (hn : RealLen n) {v : ℕ → Xmm Dbl64} (hw : w.WF) (hx : Arr w.heap x (n / 2 + 1) v)
    (hx' : Alloc w.heap x n) (hy : Alloc w.heap y n) (hxy : Sep x n y n) (hwr : wr.WF)
    (hxr : Arr wr.heap xr (n / 2 + 1) fun t j => ⟨(v t j).val⟩) (hxr' : Alloc wr.heap xr n) (hyr : Alloc wr.heap yr n)
    (hxyr : Sep xr n yr n) (hM : n * M ≤ 2 ^ 1016) {X : ℕ → ℂ} (hX : Spec.Hermitian n X)
    (hv : ∀ t ≤ n / 2, X t = cval Ieee.val (v t) ∧ cfin Dbl64.Finite (v t) ∧ ‖cval Ieee.val (v t)‖ ≤ M) (e : Entry)
    (he : e ∈ [Entry.inv, .inv0, .invu, .invn]) :
    letI := i.arith Dbl64
    letI := i.arith (Rounded rnd64)
    ∃ (out : ℕ → Dbl64) (outr : ℕ → Rounded rnd64),
      ComputesIn (realFFT (Xmm Dbl64) thr) n [(e, x, y)] w (Region x n) y n (doubles out) ∧
      ComputesIn (realFFT (Xmm (Rounded rnd64)) thr) n [(e, xr, yr)] wr (Region xr n) yr n (doubles outr) ∧
      ∀ t < n, Dbl64.Finite (out t) ∧ (out t).val = (outr t).val := by
  letI := i.arith Dbl64
  letI := i.arith (Rounded rnd64)
  exact ⟨_, _, inv_run i thr hn hw hx hx' hy hxy e he, inv_run i thr hn hwr hxr hxr' hyr hxyr e he,
    fun t ht => same_inverse i thr hn hM (fun t ht => (hv t ht).2) hX (fun t ht => (hv t ht).1) e he ht⟩

/-- C82: RealDCT; the doubles are at most `2^1016 / n`. -/
theorem C82_dct (i : Target) (thr : Thr) (hn : RealLen n) (h30 : n < 2 ^ 30) {d : ℕ → Dbl64} (hx : UserArray w x n (doubles d))
    (hxr : UserArray wr xr n (doubles fun t => ⟨(d t).val⟩)) (hM : n * M ≤ 2 ^ 1016) (hd : ∀ t < n, Dbl64.Finite (d t) ∧ |(d t).val| ≤ M)
    (e : DctEntry) :
    letI := i.arith Dbl64
    letI := i.arith (Rounded rnd64)
    ∃ (out : ℕ → Dbl64) (outr : ℕ → Rounded rnd64), Computes (realDCT (Xmm Dbl64) thr) n [(e, x)] w x n (doubles out) ∧
      Computes (realDCT (Xmm (Rounded rnd64)) thr) n [(e, xr)] wr xr n (doubles outr) ∧
      ∀ t < n, Dbl64.Finite (out t) ∧ (out t).val = (outr t).val := by
  letI := i.arith Dbl64
  letI := i.arith (Rounded rnd64)
  have c1 := fun t => (dct_cell (F := Dbl64) i thr e n (v := doubles d) (t := t) ⟨_, rfl⟩).1
  have c2 := fun t => (dct_cell (F := Rounded rnd64) i thr e n (v := doubles fun t => ⟨(d t).val⟩) (t := t) ⟨_, rfl⟩).1
  exact ⟨fun t => dctOut (Xmm Dbl64) thr e n (doubles d) t 0, fun t => dctOut (Xmm (Rounded rnd64)) thr e n (doubles fun t => ⟨(d t).val⟩) t 0,
    ComputesIn.toComputes (DCT.computes (thr := thr) hx.wf hn h30 hx.arr [e]) (Set.empty_subset _) (fun t _ => (c1 t).symm),
    ComputesIn.toComputes (DCT.computes (thr := thr) hxr.wf hn h30 hxr.arr [e]) (Set.empty_subset _) (fun t _ => (c2 t).symm),
    fun t ht => same_dct i thr hn h30 hM hd e ht⟩

/-! ### C83 -/

omit [Libm] in
theorem Dbl64.Finite.rnd {d : Dbl64} (h : Dbl64.Finite d) : rnd64 d.val = d.val := by
  obtain ⟨x, z, e, hx⟩ := h
  have : d.val = x := by
    show (match d.d with | .num x _ => x | _ => 0) = x
    rw [e]
  rw [this, IsDouble.rnd hx]

omit [Libm] in
theorem finite_zero : Dbl64.Finite ⟨.num 0 false⟩ := ⟨0, false, rfl, ⟨0, 0, by norm_num, by norm_num, by norm_num, by simp⟩⟩

omit [Libm] in
/-- the norm of a vector that is zero except for some elements -/
theorem norm_zero_le {v : Xmm Dbl64} {M : ℝ} (hM : 0 ≤ M) (h : (v 0).val = 0 ∧ (v 1).val = 0) : ‖cval Ieee.val v‖ ≤ M := by
  have : cval Ieee.val v = 0 := Complex.ext h.1 h.2
  rw [this, norm_zero]
  exact hM

/-- C83: ComplexFFT with IEEE doubles: an impulse `c`, at most `2^1019 / n`, is transformed into the constant `c`, exactly. -/
theorem C83_impulse (i : Target) (thr : Thr) (hn : ValidLen n) {v : ℕ → Xmm Dbl64} (hx : UserArray w x n v)
    (hc : cfin Dbl64.Finite (v 0) ∧ n * ‖cval Ieee.val (v 0)‖ ≤ 2 ^ 1019)
    (h : ∀ t < n, t ≠ 0 → cfin Dbl64.Finite (v t) ∧ (v t 0).val = 0 ∧ (v t 1).val = 0) (e : Entry)
    (he : e = .fwd0 ∨ (e = .inv ∨ e = .inv0) ∧ ∃ k ≤ 24, n = 2 ^ k) :
    letI := i.arith Dbl64
    ∃ out : ℕ → Xmm Dbl64, Computes (complexFFT (Xmm Dbl64) thr) n [(e, x)] w x n out ∧
      ∀ t < n, ∀ j, Dbl64.Finite (out t j) ∧ (out t j).val = (v 0 j).val := by
  letI := i.arith Dbl64
  letI := i.arith (Rounded rnd64)
  obtain ⟨out, outr, h1, h2, h3⟩ := C82_complex (wr := oneArray n (vals64 v)) (xr := Ptr.base 1) i thr hn hx (oneArray_ok n _)
    hc.2 (fun t ht => (eq_or_ne t 0).elim (fun h0 => by subst h0; exact ⟨hc.1, le_refl _⟩)
      (fun h0 => ⟨(h t ht h0).1, norm_zero_le (norm_nonneg _) (h t ht h0).2⟩)) e
  obtain ⟨o, h4, h5⟩ := C67_impulse rnd64_keeps i thr hn (oneArray_ok n (vals64 v)) (vals64 v 0)
    ⟨Dbl64.Finite.rnd hc.1.1, Dbl64.Finite.rnd hc.1.2⟩ rfl (fun t ht h0 => (h t ht h0).2) e he
  refine ⟨out, h1, fun t ht j => ⟨(h3 t ht j).1, ?_⟩⟩
  rw [(h3 t ht j).2, computes_unique (by simp [oneArray]) h2 h4 t ht, h5 t ht]
  rfl

/-- C83: ComplexFFT with IEEE doubles, `n = 2^k ≤ 2^24`: a constant `c`, at most `2^1019 / n`, is transformed into `n c` in element 0
and zero elsewhere, exactly. -/
theorem C83_constant (i : Target) (thr : Thr) {k : ℕ} (hn : n = 2 ^ k) (h1 : 1 ≤ k) (hk : k ≤ 24) {v : ℕ → Xmm Dbl64}
    (hx : UserArray w x n v) {c : Xmm Dbl64} (hc : cfin Dbl64.Finite c ∧ n * ‖cval Ieee.val c‖ ≤ 2 ^ 1019) (h : ∀ t < n, v t = c)
    (e : Entry) (he : e = .fwd0 ∨ e = .inv ∨ e = .inv0) :
    letI := i.arith Dbl64
    ∃ out : ℕ → Xmm Dbl64, Computes (complexFFT (Xmm Dbl64) thr) n [(e, x)] w x n out ∧
      ∀ t < n, ∀ j, Dbl64.Finite (out t j) ∧ (out t j).val = if t = 0 then n * (c j).val else 0 := by
  letI := i.arith Dbl64
  letI := i.arith (Rounded rnd64)
  have hv : ValidLen n := hn ▸ validLen_pow k h1 (by omega)
  obtain ⟨out, outr, g1, g2, g3⟩ := C82_complex (wr := oneArray n (vals64 v)) (xr := Ptr.base 1) i thr hv hx (oneArray_ok n _)
    hc.2 (fun t ht => by rw [h t ht]; exact ⟨hc.1, le_refl _⟩) e
  obtain ⟨o, g4, g5, g6⟩ := C67_constant rnd64_keeps i thr hn h1 hk (oneArray_ok n (vals64 v)) (vals64 (fun _ => c) 0)
    ⟨Dbl64.Finite.rnd hc.1.1, Dbl64.Finite.rnd hc.1.2⟩ (fun t ht => by funext j; rw [vals64, h t ht]; rfl) e he
  refine ⟨out, g1, fun t ht j => ⟨(g3 t ht j).1, ?_⟩⟩
  rw [(g3 t ht j).2, computes_unique (by simp [oneArray]) g2 g4 t ht]
  split
  · rename_i h0
    subst h0
    match j with
    | 0 => exact g5.1
    | 1 => exact g5.2
  · rename_i h0
    match j with
    | 0 => exact (g6 t ht h0).1
    | 1 => exact (g6 t ht h0).2

/-- C83: RealFFT with IEEE doubles: a real impulse, at most `2^1016 / n`, is transformed into a constant by `fwd0`, exactly. -/
theorem C83_real_impulse (i : Target) (thr : Thr) (hn : RealLen n) (hw : w.WF) {d : ℕ → Dbl64} (hx : Arr w.heap x n (doubles d))
    (hy : Alloc w.heap y n) (hxy : Sep x n y n) (hc : Dbl64.Finite (d 0) ∧ n * |(d 0).val| ≤ 2 ^ 1016)
    (h : ∀ t < n, t ≠ 0 → Dbl64.Finite (d t) ∧ (d t).val = 0) :
    letI := i.arith Dbl64
    ∃ out : ℕ → Xmm Dbl64, Computes (realFFT (Xmm Dbl64) thr) n [(.fwd0, x, y)] w y n out ∧
      ∀ t < n, cfin Dbl64.Finite (out t) ∧ (out t 0).val = (d 0).val ∧ (out t 1).val = 0 := by
  letI := i.arith Dbl64
  letI := i.arith (Rounded rnd64)
  have ok := twoArrays_ok (C := Xmm (Rounded rnd64)) n (doubles fun t => ⟨(d t).val⟩)
  obtain ⟨out, outr, h1, h2, h3⟩ := C82_real_forward i thr hn hw hx hy hxy ok.wf ok.arr (twoArrays_alloc _ _) (twoArrays_sep _) hc.2
    (fun t ht => (eq_or_ne t 0).elim (fun h0 => by subst h0; exact ⟨hc.1, le_refl _⟩)
      (fun h0 => ⟨(h t ht h0).1, by rw [(h t ht h0).2, abs_zero]; exact abs_nonneg _⟩)) .fwd0 (by simp)
  obtain ⟨o, h4, h5⟩ := C72_impulse rnd64_keeps i thr hn ok.wf ok.arr (twoArrays_alloc _ _) (twoArrays_sep _) (Dbl64.Finite.rnd hc.1)
    (fun t ht h0 => (h t ht h0).2)
  refine ⟨out, h1, fun t ht => ⟨⟨(h3 t ht 0).1, (h3 t ht 1).1⟩, ?_⟩⟩
  rw [(h3 t ht 0).2, (h3 t ht 1).2, computes_unique (by simp [twoArrays]) h2 h4 t ht]
  exact h5 t ht

/-- C83: RealFFT with IEEE doubles, `4 ≤ n = 2^(k+1) ≤ 2^25`: a real constant is transformed into `n c` (normalised: `c`) in element 0
and zero elsewhere, exactly. -/
theorem C83_real_constant (i : Target) (thr : Thr) {k : ℕ} (hn : n = 2 ^ (k + 1)) (h1 : 1 ≤ k) (hk : k ≤ 24) (hw : w.WF)
    {d : ℕ → Dbl64} (hx : Arr w.heap x n (doubles d)) (hy : Alloc w.heap y n) (hxy : Sep x n y n)
    {c : Dbl64} (hc : Dbl64.Finite c ∧ n * |c.val| ≤ 2 ^ 1016) (h : ∀ t < n, d t = c) (e : Entry) (he : e ∈ [Entry.fwd, .fwd0, .fwdn]) :
    letI := i.arith Dbl64
    ∃ out : ℕ → Xmm Dbl64, Computes (realFFT (Xmm Dbl64) thr) n [(e, x, y)] w y n out ∧
      ∀ t < n, cfin Dbl64.Finite (out t) ∧ (out t 0).val = (if t = 0 then (if e = .fwd0 then n * c.val else c.val) else 0) ∧
        (out t 1).val = 0 := by
  letI := i.arith Dbl64
  letI := i.arith (Rounded rnd64)
  have hl : RealLen n := hn ▸ realLen_pow h1 (by omega)
  have ok := twoArrays_ok (C := Xmm (Rounded rnd64)) n (doubles fun t => ⟨(d t).val⟩)
  obtain ⟨out, outr, g1, g2, g3⟩ := C82_real_forward i thr hl hw hx hy hxy ok.wf ok.arr (twoArrays_alloc _ _) (twoArrays_sep _) hc.2
    (fun t ht => by rw [h t ht]; exact ⟨hc.1, le_refl _⟩) e (by
      simp only [List.mem_cons, List.not_mem_nil, or_false] at he ⊢
      tauto)
  obtain ⟨o, g4, g5, g6, g7⟩ := C72_constant rnd64_keeps i thr hn h1 hk ok.wf ok.arr (twoArrays_alloc _ _) (twoArrays_sep _)
    (c := ⟨c.val⟩) (Dbl64.Finite.rnd hc.1) (fun t ht => by rw [h t ht]) e he
  refine ⟨out, g1, fun t ht => ⟨⟨(g3 t ht 0).1, (g3 t ht 1).1⟩, ?_⟩⟩
  rw [(g3 t ht 0).2, (g3 t ht 1).2, computes_unique (by simp [twoArrays]) g2 g4 t ht]
  rcases eq_or_ne t 0 with rfl | h0
  · rw [if_pos rfl]
    exact ⟨g5, g6⟩
  · rw [if_neg h0]
    exact g7 t ht h0

/-- C83: RealFFT inverse with IEEE doubles: a spectrum with `c` in element 0 and zero elsewhere becomes the constant `c`, exactly. -/
theorem C83_real_inverse (i : Target) (thr : Thr) {k : ℕ} (hn : n = 2 ^ (k + 1)) (h1 : 1 ≤ k) (hk : k ≤ 24) (hw : w.WF)
    {v : ℕ → Xmm Dbl64} (hx : Arr w.heap x n v) (hy : Alloc w.heap y n) (hxy : Sep x n y n)
    (hf : ∀ t < n, cfin Dbl64.Finite (v t)) (hc : n * |(v 0 0).val| ≤ 2 ^ 1016) (hc2 : IsDouble ((v 0 0).val / 2))
    (h0 : (v 0 1).val = 0) (h : ∀ t < n, t ≠ 0 → (v t 0).val = 0 ∧ (v t 1).val = 0) (e : Entry) (he : e = .inv ∨ e = .inv0) :
    letI := i.arith Dbl64
    ∃ out : ℕ → Dbl64, ComputesIn (realFFT (Xmm Dbl64) thr) n [(e, x, y)] w (Region x n) y n (doubles out) ∧
      ∀ t < n, Dbl64.Finite (out t) ∧ (out t).val = (v 0 0).val := by
  letI := i.arith Dbl64
  letI := i.arith (Rounded rnd64)
  have hl : RealLen n := hn ▸ realLen_pow h1 (by omega)
  have hpos := hl.pos
  have hev := hl.even
  have hhalf : ∀ t ≤ n / 2, t < n := fun t ht => by omega
  have he' : e ∈ [Entry.inv, .inv0, .invu, .invn] := by rcases he with rfl | rfl <;> simp
  have half : rnd64 (1 / 2) = 1 / 2 := by have := rnd64_int2 (k := 1) (by norm_num); simpa using this
  have hcv : ∀ t < n, cval Ieee.val (v t) = if t = 0 then (((v 0 0).val : ℝ) : ℂ) else 0 := by
    intro t ht
    split
    · rename_i e0
      subst e0
      exact Complex.ext rfl h0
    · rename_i e0
      exact Complex.ext (h t ht e0).1 (h t ht e0).2
  have hX : Spec.Hermitian n (fun t => if t % n = 0 then (((v 0 0).val : ℝ) : ℂ) else 0) := by
    intro t ht
    have : (n - t) % n % n = 0 ↔ t % n = 0 := by
      rw [Nat.mod_mod, Nat.mod_eq_of_lt ht]
      rcases Nat.eq_zero_or_pos t with rfl | hp
      · simp
      · rw [Nat.mod_eq_of_lt (by omega)]
        omega
    beta_reduce
    simp only [this]
    split
    · exact (Complex.conj_ofReal _).symm
    · exact (map_zero _).symm
  have ok := twoArrays_ok (C := Xmm (Rounded rnd64)) n (vals64 v)
  obtain ⟨out, outr, g1, g2, g3⟩ := C82_real_inverse (wr := twoArrays n (vals64 v)) i thr hl hw (fun j hj => hx j (by omega)) hx.alloc hy hxy
    ok.wf (fun j hj => ok.arr j (by omega)) ok.arr.alloc (twoArrays_alloc _ _) (twoArrays_sep _) hc hX
    (fun t ht => by
      have ht' := hhalf t ht
      rw [hcv t ht', Nat.mod_eq_of_lt ht']
      refine ⟨rfl, hf t ht', ?_⟩
      split
      · rw [Complex.norm_real]
        exact le_refl _
      · rw [norm_zero]
        exact abs_nonneg _) e he'
  obtain ⟨o, g4, g5⟩ := C72_inverse rnd64_keeps rnd64_neg half i thr hn h1 hk ok.wf ok.arr (twoArrays_alloc _ _) (twoArrays_sep _)
    (c := ⟨(v 0 0).val⟩) (Dbl64.Finite.rnd (hf 0 hpos).1) (IsDouble.rnd hc2) ⟨rfl, h0⟩ h e he
  refine ⟨out, g1, fun t ht => ⟨(g3 t ht).1, ?_⟩⟩
  have g2' : ComputesIn (realFFT (Xmm (Rounded rnd64)) thr) n [(e, Ptr.base 1, Ptr.base 2)] (twoArrays n (vals64 v))
      (Region (Ptr.base 1) n ∪ Region (Ptr.base 2) n) (Ptr.base 2) n (doubles outr) := by
    obtain ⟨a1, a2⟩ := g2
    refine ⟨Act.wp_mono a1 ?_, a2⟩
    rintro ok w' ⟨a', b, c⟩
    refine ⟨a', fun hok => ⟨(b hok).1, fun l hl => (b hok).2 l fun h => hl ?_⟩, c⟩
    rcases h with h | h
    · exact .inl h
    · exact .inr (.inl h)
  rw [(g3 t ht).2]
  have := congrFun (computesIn_unique (by simp [twoArrays]) g2' g4 t ht) 0
  rw [show outr t = doubles outr t 0 from rfl, this]
  exact g5 t ht

/-- C83: RealDCT with IEEE doubles, `4 ≤ n = 2^(k+1) ≤ 2^25`: the DCT-II of a constant is `n c` (normalised: `c`) in element 0 and zero
elsewhere, exactly. -/
theorem C83_dct_constant (i : Target) (thr : Thr) {k : ℕ} (hn : n = 2 ^ (k + 1)) (h1 : 1 ≤ k) (hk : k ≤ 24)
    {d : ℕ → Dbl64} (hx : UserArray w x n (doubles d)) {c : Dbl64} (hc : Dbl64.Finite c ∧ n * |c.val| ≤ 2 ^ 1016) (h : ∀ t < n, d t = c)
    (e : DctEntry) (he : e ∈ [DctEntry.fwd, .fwd0, .fwdn]) :
    letI := i.arith Dbl64
    ∃ out : ℕ → Dbl64, Computes (realDCT (Xmm Dbl64) thr) n [(e, x)] w x n (doubles out) ∧
      ∀ t < n, Dbl64.Finite (out t) ∧ (out t).val = (if t = 0 then (if e = .fwd0 then n * c.val else c.val) else 0) := by
  letI := i.arith Dbl64
  letI := i.arith (Rounded rnd64)
  have hl : RealLen n := hn ▸ realLen_pow h1 (by omega)
  have h30 : n < 2 ^ 30 := by rw [hn]; exact Nat.pow_lt_pow_right (by norm_num) (by omega)
  have ok := oneArray_ok (C := Xmm (Rounded rnd64)) n (doubles fun t => ⟨(d t).val⟩)
  obtain ⟨out, outr, g1, g2, g3⟩ := C82_dct i thr hl h30 hx ok hc.2 (fun t ht => by rw [h t ht]; exact ⟨hc.1, le_refl _⟩) e
  obtain ⟨o, g4, g5, g6⟩ := C73_constant rnd64_keeps i thr hn h1 hk ok
    (c := ⟨c.val⟩) (Dbl64.Finite.rnd hc.1) (fun t ht => by rw [h t ht]) e he
  refine ⟨out, g1, fun t ht => ⟨(g3 t ht).1, ?_⟩⟩
  have := congrFun (computes_unique (by simp [oneArray]) g2 g4 t ht) 0
  rw [(g3 t ht).2, show outr t = doubles outr t 0 from rfl, this]
  rcases eq_or_ne t 0 with rfl | h0
  · rw [if_pos rfl]
    exact g5
  · rw [if_neg h0]
    exact g6 t ht h0

/-- C83: RealDCT inverse with IEEE doubles: `c` in element 0 and zero elsewhere becomes the constant `c`, exactly. -/
theorem C83_dct_inverse (i : Target) (thr : Thr) {k : ℕ} (hn : n = 2 ^ (k + 1)) (h1 : 1 ≤ k) (hk : k ≤ 24)
    {d : ℕ → Dbl64} (hx : UserArray w x n (doubles d)) (hf : ∀ t < n, Dbl64.Finite (d t)) (hc : n * |(d 0).val| ≤ 2 ^ 1016)
    (hc2 : IsDouble ((d 0).val / 2)) (h : ∀ t < n, t ≠ 0 → (d t).val = 0) (e : DctEntry) (he : e = .inv ∨ e = .inv0) :
    letI := i.arith Dbl64
    ∃ out : ℕ → Dbl64, Computes (realDCT (Xmm Dbl64) thr) n [(e, x)] w x n (doubles out) ∧
      ∀ t < n, Dbl64.Finite (out t) ∧ (out t).val = (d 0).val := by
  letI := i.arith Dbl64
  letI := i.arith (Rounded rnd64)
  have hl : RealLen n := hn ▸ realLen_pow h1 (by omega)
  have h30 : n < 2 ^ 30 := by rw [hn]; exact Nat.pow_lt_pow_right (by norm_num) (by omega)
  have half : rnd64 (1 / 2) = 1 / 2 := by have := rnd64_int2 (k := 1) (by norm_num); simpa using this
  have ok := oneArray_ok (C := Xmm (Rounded rnd64)) n (doubles fun t => ⟨(d t).val⟩)
  obtain ⟨out, outr, g1, g2, g3⟩ := C82_dct i thr hl h30 hx ok hc (fun t ht => ⟨hf t ht, by
    rcases eq_or_ne t 0 with rfl | h0
    · exact le_refl _
    · rw [h t ht h0, abs_zero]
      exact abs_nonneg _⟩) e
  obtain ⟨o, g4, g5⟩ := C73_inverse rnd64_keeps rnd64_neg half i thr hn h1 hk ok
    (c := ⟨(d 0).val⟩) (Dbl64.Finite.rnd (hf 0 hl.pos)) (IsDouble.rnd hc2) rfl h e he
  refine ⟨out, g1, fun t ht => ⟨(g3 t ht).1, ?_⟩⟩
  have := congrFun (computes_unique (by simp [oneArray]) g2 g4 t ht) 0
  rw [(g3 t ht).2, show outr t = doubles outr t 0 from rfl, this]
  exact g5 t ht

end

/-! ### Examples -/

omit [Libm] in
/-- a small integer is a finite double -/
theorem finite_int {k : ℤ} (h : |k| < 2 ^ 53) (z : Bool) : Dbl64.Finite ⟨.num k z⟩ :=
  ⟨k, z, rfl, ⟨k, 0, h, by norm_num, by norm_num, by simp⟩⟩

omit [Libm] in
theorem big_le {a : ℝ} (h : a ≤ 2 ^ 20) {k : ℕ} (hk : 20 ≤ k) : a ≤ 2 ^ k := h.trans (pow_le_pow_right₀ (by norm_num) hk)

omit [Libm] in
theorem norm_le_sum (v : Xmm Dbl64) : ‖cval Ieee.val v‖ ≤ |(v 0).val| + |(v 1).val| := Complex.norm_le_abs_re_add_abs_im _

/-- an impulse of length 30 = 2·3·5 with a negative zero among the samples -/
example (thr : Thr) : letI := avxBuild.arith Dbl64
    ∃ out : ℕ → Xmm Dbl64, Computes (complexFFT (Xmm Dbl64) thr) 30 [(.fwd0, Ptr.base 1)]
      (oneArray 30 fun t => if t = 0 then ![⟨.num (3:ℤ) false⟩, ⟨.num (-1:ℤ) true⟩] else ![⟨.num (0:ℤ) false⟩, ⟨.num (0:ℤ) true⟩])
      (Ptr.base 1) 30 out ∧ (out 17 0).val = 3 ∧ (out 17 1).val = -1 := by
  obtain ⟨out, h, a⟩ := C83_impulse avxBuild thr (n := 30) (validLen_of_le (by omega) (by omega))
    (oneArray_ok 30 fun t => if t = 0 then (![⟨.num (3:ℤ) false⟩, ⟨.num (-1:ℤ) true⟩] : Xmm Dbl64) else
      ![⟨.num (0:ℤ) false⟩, ⟨.num (0:ℤ) true⟩])
    ⟨⟨finite_int (k := 3) (by norm_num) false, finite_int (k := -1) (by norm_num) true⟩, big_le (le_trans (mul_le_mul_of_nonneg_left (norm_le_sum _) (by norm_num)) (by
      show ((30:ℕ):ℝ) * (|((3:ℤ):ℝ)| + |((-1:ℤ):ℝ)|) ≤ _
      norm_num)) (by norm_num)⟩
    (fun t _ h0 => by
      simp only [if_neg h0]
      refine ⟨⟨finite_int (by norm_num) _, finite_int (by norm_num) _⟩, ?_, ?_⟩
      · show ((0:ℤ):ℝ) = 0
        norm_num
      · show ((0:ℤ):ℝ) = 0
        norm_num) .fwd0 (.inl rfl)
  refine ⟨out, h, (a 17 (by norm_num) 0).2.trans ?_, (a 17 (by norm_num) 1).2.trans ?_⟩
  · show ((3:ℤ):ℝ) = 3
    norm_num
  · show ((-1:ℤ):ℝ) = -1
    norm_num

/-- Bluestein, length 7, samples 5: the double precision result has the values of the rounded real computation -/
example (thr : Thr) : letI := sse2Build.arith Dbl64
    letI := sse2Build.arith (Rounded rnd64)
    ∃ (out : ℕ → Xmm Dbl64) (outr : ℕ → Xmm (Rounded rnd64)),
      Computes (bluesteinFFT (Xmm Dbl64) thr) 7 [(.fwd, Ptr.base 1)] (oneArray 7 fun _ => ![⟨.num (5:ℤ) false⟩, ⟨.num (0:ℤ) false⟩]) (Ptr.base 1) 7 out ∧
      Computes (bluesteinFFT (Xmm (Rounded rnd64)) thr) 7 [(.fwd, Ptr.base 1)] (oneArray 7 fun _ j => ⟨((![⟨.num (5:ℤ) false⟩, ⟨.num (0:ℤ) false⟩] : Xmm Dbl64) j).val⟩)
        (Ptr.base 1) 7 outr ∧ (out 3 1).val = (outr 3 1).val := by
  obtain ⟨out, outr, h1, h2, h3⟩ := C82_bluestein (M := 5) (n := 7) sse2Build thr (by norm_num) (by norm_num)
    (oneArray_ok 7 fun _ => (![⟨.num (5:ℤ) false⟩, ⟨.num (0:ℤ) false⟩] : Xmm Dbl64)) (oneArray_ok 7 _) (big_le (by norm_num) (by norm_num))
    (fun t _ => ⟨⟨finite_int (k := 5) (by norm_num) false, finite_int (k := 0) (by norm_num) false⟩, le_trans (norm_le_sum _) (by
      show |((5:ℤ):ℝ)| + |((0:ℤ):ℝ)| ≤ 5
      norm_num)⟩) .fwd
  exact ⟨out, outr, h1, h2, (h3 3 (by norm_num) 1).2⟩

/-- real data of length 16: the spectrum of the constant 3 -/
example (thr : Thr) : letI := avxBuild.arith Dbl64
    ∃ out : ℕ → Xmm Dbl64, Computes (realFFT (Xmm Dbl64) thr) 16 [(.fwd0, Ptr.base 1, Ptr.base 2)]
      (twoArrays 16 (doubles fun _ => ⟨.num (3:ℤ) false⟩)) (Ptr.base 2) 16 out ∧ (out 0 0).val = 48 ∧ (out 7 0).val = 0 := by
  have ok := twoArrays_ok 16 (doubles fun _ => (⟨.num (3:ℤ) false⟩ : Dbl64))
  obtain ⟨out, h, a⟩ := C83_real_constant (n := 16) avxBuild thr (k := 3) (by norm_num) (by omega) (by omega) ok.wf ok.arr
    (twoArrays_alloc _ _) (twoArrays_sep _) (c := ⟨.num (3:ℤ) false⟩) ⟨finite_int (by norm_num) _, big_le (by
      show ((16:ℕ):ℝ) * |((3:ℤ):ℝ)| ≤ _
      norm_num) (by norm_num)⟩ (fun _ _ => rfl) .fwd0 (by simp)
  refine ⟨out, h, ?_, ?_⟩
  · rw [(a 0 (by norm_num)).2.1, if_pos rfl, if_pos rfl]
    show ((16:ℕ):ℝ) * ((3:ℤ):ℝ) = 48
    norm_num
  · rw [(a 7 (by norm_num)).2.1, if_neg (by norm_num)]

/-- … and the inverse transform of length 16 of a spectrum that is 10 in element 0 -/
example (thr : Thr) : letI := sse2Build.arith Dbl64
    ∃ out : ℕ → Dbl64, ComputesIn (realFFT (Xmm Dbl64) thr) 16 [(.inv, Ptr.base 1, Ptr.base 2)]
      (twoArrays 16 fun t => if t = 0 then ![⟨.num (10:ℤ) false⟩, ⟨.num (0:ℤ) false⟩] else ![⟨.num (0:ℤ) false⟩, ⟨.num (0:ℤ) true⟩])
      (Region (Ptr.base 1) 16) (Ptr.base 2) 16 (doubles out) ∧ (out 9).val = 10 := by
  have ok := twoArrays_ok 16 fun t => if t = 0 then (![⟨.num (10:ℤ) false⟩, ⟨.num (0:ℤ) false⟩] : Xmm Dbl64) else
    ![⟨.num (0:ℤ) false⟩, ⟨.num (0:ℤ) true⟩]
  obtain ⟨out, h, a⟩ := C83_real_inverse (n := 16) sse2Build thr (k := 3) (by norm_num) (by omega) (by omega) ok.wf ok.arr
    (twoArrays_alloc _ _) (twoArrays_sep _) (fun t _ => by
      split
      · exact ⟨finite_int (by norm_num) _, finite_int (by norm_num) _⟩
      · exact ⟨finite_int (by norm_num) _, finite_int (by norm_num) _⟩)
    (big_le (by
      show ((16:ℕ):ℝ) * |((10:ℤ):ℝ)| ≤ _
      norm_num) (by norm_num))
    (by
      show IsDouble (((10:ℤ):ℝ) / 2)
      exact ⟨5, 0, by norm_num, by norm_num, by norm_num, by norm_num⟩)
    (by
      show ((0:ℤ):ℝ) = 0
      norm_num)
    (fun t _ h0 => by
      simp only [if_neg h0]
      exact ⟨by show ((0:ℤ):ℝ) = 0; norm_num, by show ((0:ℤ):ℝ) = 0; norm_num⟩) .inv (.inl rfl)
  refine ⟨out, h, (a 9 (by norm_num)).2.trans ?_⟩
  show ((10:ℤ):ℝ) = 10
  norm_num

end OTFFT.Props
