/-
C80: results for which no exception flag was raised are accurate, however large or small the input is.
-/
import Verif.Props.Flags
import Verif.Props.AccuracyReal
import Verif.Props.AccuracyBlue
import Verif.Props.Ieee
import Verif.Props.Normal
import Verif.Props.NearIdentities
import Verif.Props.AccuracyRmsReal

namespace OTFFT.Props

open Finset

/-! ### rounding to 53 bits -/

/-- a number that is a double has 53 bits -/
theorem rnd53_double {x : ℝ} (h : IsDouble x) : rnd53 x = x := by
  obtain ⟨k, e, hk, -, -, rfl⟩ := h
  exact rnd53_repr (by rw [abs_le]; rw [abs_lt] at hk; omega)

variable [Libm]

theorem rounded53_laws : Binary64 (Rounded rnd53) Rounded.val (fun _ => True) := by
  have hη : (0:ℝ) ≤ 1 / 2 ^ 1075 := by positivity
  have h2 : (0:ℝ) ≤ √2 / 2 := by positivity
  have hp := Real.pi_pos
  have hc : 0 ≤ Real.cos (Real.pi / 8) := Real.cos_nonneg_of_mem_Icc ⟨by linarith, by linarith⟩
  have hs : 0 ≤ Real.sin (Real.pi / 8) := Real.sin_nonneg_of_nonneg_of_le_pi (by linarith) (by linarith)
  refine ⟨fun a b _ _ _ => ⟨trivial, rnd53_err (a.val + b.val)⟩, fun a b _ _ _ => ⟨trivial, rnd53_err (a.val - b.val)⟩,
    fun a b _ _ _ => ⟨trivial, le_trans (rnd53_err (a.val * b.val)) (le_add_of_nonneg_right hη)⟩,
    fun a b _ _ _ _ => ⟨trivial, le_trans (rnd53_err (a.val / b.val)) (le_add_of_nonneg_right hη)⟩,
    fun a b c _ _ _ _ => ⟨trivial, le_trans (rnd53_err (a.val * b.val + c.val)) (le_add_of_nonneg_right hη)⟩,
    fun a b c _ _ _ _ => ⟨trivial, le_trans (rnd53_err (a.val * b.val - c.val)) (le_add_of_nonneg_right hη)⟩,
    fun a _ h => ⟨trivial, ?_⟩, fun a _ => ⟨trivial, rfl⟩, fun n _ => ⟨trivial, rfl⟩,
    fun a _ h => ⟨trivial, ?_⟩, fun a _ h => ⟨trivial, ?_⟩,
    ⟨trivial, ?_⟩, ⟨trivial, ?_⟩, ⟨trivial, ?_⟩, ⟨trivial, ?_⟩⟩
  · have := rnd53_err (√a.val); rwa [abs_of_nonneg (Real.sqrt_nonneg _)] at this
  · show |rnd53 (Libm.cos a.val) - _| ≤ _
    rw [rnd53_double (Libm.cos_double _)]
    exact le_trans (Libm.cos_err _ h) (by norm_num)
  · show |rnd53 (Libm.sin a.val) - _| ≤ _
    rw [rnd53_double (Libm.sin_double _)]
    exact le_trans (Libm.sin_err _ h) (by norm_num)
  · have := rnd53_err Real.pi; rwa [abs_of_pos hp] at this
  · have := rnd64_lit (x := litSqrt1_2) (y := √2 / 2) 53 _ (by norm_num) (by norm_num) (by norm_num) lits.1.1 lits.1.2
    rwa [abs_of_nonneg h2, rnd64_eq (tiny_le (by unfold litSqrt1_2; norm_num))] at this
  · have := rnd64_lit (x := litH1X) (y := Real.cos (Real.pi / 8)) 53 _ (by norm_num) (by norm_num) (by norm_num) lits.2.1.1 lits.2.1.2
    rwa [abs_of_nonneg hc, rnd64_eq (tiny_le (by unfold litH1X; norm_num))] at this
  · have := rnd64_lit (x := litH1Y) (y := -Real.sin (Real.pi / 8)) 54 _ (by norm_num) (by norm_num) (by norm_num) lits.2.2.1.1 lits.2.2.1.2
    have e := rnd64_eq (x := -(litH1Y : ℝ)) (tiny_le (by unfold litH1Y; norm_num))
    rw [rnd64_neg, rnd53_neg, neg_inj] at e
    rwa [abs_neg, abs_of_nonneg hs, e] at this

omit [Libm] in
/-- A bound on the error that holds for inputs of size 1 to 2 holds for all, if everything scales by powers of two. -/
theorem scale_free {V : Type} {P : V → ℝ → Prop} {err : V → ℝ} {sm : ℤ → V → V} (hP : ∀ k v M, P v M → P (sm k v) (2 ^ k * M))
    (mono : ∀ v M M', M ≤ M' → P v M → P v M') (herr : ∀ k v M, P v M → err (sm k v) = 2 ^ k * err v) {K : ℝ}
    (h : ∀ v M, 1 ≤ M → M ≤ 2 → P v M → err v ≤ K * M) {v : V} {M : ℝ} (hM : 0 ≤ M) (hv : P v M) : err v ≤ K * M := by
  have pos : ∀ M, 0 < M → P v M → err v ≤ K * M := by
    intro M hM hv
    have l1 : (2:ℝ) ^ Int.log 2 M ≤ M := by exact_mod_cast Int.zpow_log_le_self (b := 2) (by norm_num) hM
    have l2 : M < (2:ℝ) ^ (Int.log 2 M + 1) := by exact_mod_cast Int.lt_zpow_succ_log_self (b := 2) (by norm_num) M
    set e := Int.log 2 M
    have hp : (0:ℝ) < 2 ^ e := by positivity
    have b1 : 1 ≤ (2:ℝ) ^ (-e) * M := by
      rw [zpow_neg, ← div_eq_inv_mul, le_div_iff₀ hp, one_mul]; exact l1
    have b2 : (2:ℝ) ^ (-e) * M ≤ 2 := by
      rw [zpow_neg, ← div_eq_inv_mul, div_le_iff₀ hp]
      rw [zpow_add₀ (by norm_num), zpow_one] at l2
      linarith
    have := h _ _ b1 b2 (hP (-e) v M hv)
    rw [herr _ _ _ hv, mul_left_comm] at this
    exact le_of_mul_le_mul_left this (by positivity)
  rcases hM.lt_or_eq with h0 | h0
  · exact pos M h0 hv
  · subst h0
    rw [mul_zero]
    refine le_of_forall_pos_le_add fun ε hε => ?_
    rw [zero_add]
    have h1 : (0:ℝ) < |K| + 1 := by positivity
    have := pos (ε / (|K| + 1)) (by positivity) (mono _ _ _ (by positivity) hv)
    refine le_trans this ?_
    rw [mul_div_assoc', div_le_iff₀ h1]
    nlinarith [le_abs_self K]

abbrev R := Rounded rnd53

/-- the input times a power of two -/
noncomputable def scl2 (k : ℤ) (v : ℕ → Xmm R) : ℕ → Xmm R := fun t j => ⟨2 ^ k * (v t j).val⟩

omit [Libm] in
theorem cval_scl2 (k : ℤ) (v : ℕ → Xmm R) (t : ℕ) : cval Rounded.val (scl2 k v t) = 2 ^ k * cval Rounded.val (v t) := by
  have : ((2:ℂ) ^ k) = (((2:ℝ) ^ k : ℝ) : ℂ) := by push_cast; rfl
  rw [this, ← Complex.real_smul]
  exact Complex.ext (by rw [Complex.smul_re]; rfl) (by rw [Complex.smul_im]; rfl)

omit [Libm] in
theorem norm_two_zpow (k : ℤ) : ‖((2:ℂ) ^ k)‖ = (2:ℝ) ^ k := by rw [norm_zpow]; norm_num

theorem out_scl2 (i : Target) (thr : Thr) (kd : Kind) {n : ℕ} (hn : lenOK kd n) (f : kd.Fn) (k : ℤ) (v : ℕ → Xmm R) :
    letI := i.arith R
    ∀ t < n, cval Rounded.val (kd.out (Xmm R) thr n f (scl2 k v) t) = 2 ^ k * cval Rounded.val (kd.out (Xmm R) thr n f v t) := by
  letI := i.arith R
  intro t ht
  have h := out_hom (u := v) (v := v) (v' := scl2 k v) (Target.homLaws (pres_of (Rounded.preserved (s := (2:ℝ) ^ k) (rnd53_scale k))) i (Equiv.refl _) (Equiv.refl _))
    thr kd hn f (fun t _ => ⟨rfl, rfl⟩) t ht
  have : ((2:ℂ) ^ k) = (((2:ℝ) ^ k : ℝ) : ℂ) := by push_cast; rfl
  rw [this, ← Complex.real_smul]
  exact Complex.ext (by rw [Complex.smul_re]; exact h.1) (by rw [Complex.smul_im]; exact h.2)

omit [Libm] in
theorem exact_scale (e : Entry) (n : ℕ) (u : ℕ → ℂ) (s : ℂ) (t : ℕ) : e.exact n (fun j => s * u j) t = s * e.exact n u t := by
  rw [exact_eq, exact_eq, xdft_sum, xdft_sum, mul_left_comm, mul_sum, mul_sum, mul_sum]
  refine sum_congr rfl fun j _ => ?_
  ring

/-! ### numbers with 53 bits and unlimited exponent: bounds for inputs of every size -/

section free
variable {n : ℕ} {M : ℝ}

omit [Libm] in
theorem one_ge {M : ℝ} (h : 1 ≤ M) : 1 / 2 ^ 970 ≤ M :=
  le_trans (div_le_one_of_le₀ (one_le_pow₀ (by norm_num)) (by positivity)) h

omit [Libm] in
/-- the error of a result that scales with the input -/
theorem err_scale {a b c d s : ℂ} {r : ℝ} (hs : ‖s‖ = r) (h1 : a = s * b) (h2 : c = s * d) : ‖a - c‖ = r * ‖b - d‖ := by
  rw [h1, h2, ← mul_sub, norm_mul, hs]

theorem complex_free (i : Target) (thr : Thr) (hn : ValidLen n) {v : ℕ → Xmm R} (hM : 0 ≤ M)
    (hv : ∀ t < n, ‖cval Rounded.val (v t)‖ ≤ M) (e : Entry) {t : ℕ} (ht : t < n) :
    letI := i.arith R
    ‖cval Rounded.val (fftOut (Xmm R) thr e.isInv e.mode n v t) - e.exact n (fun j => cval Rounded.val (v j)) t‖ ≤
      errWeight n / 2 ^ 52 * (e.factor n * n) * M := by
  letI := i.arith R
  refine scale_free (P := fun (v : ℕ → Xmm R) M => ∀ t < n, ‖cval Rounded.val (v t)‖ ≤ M) (sm := scl2)
    (err := fun v => ‖cval Rounded.val (fftOut (Xmm R) thr e.isInv e.mode n v t) - e.exact n (fun j => cval Rounded.val (v j)) t‖)
    (fun k v M h t ht => ?_) (fun v M M' hM h t ht => le_trans (h t ht) hM) (fun k v M h => ?_) (fun v M h1 h2 h => ?_) hM hv
  · rw [cval_scl2, norm_mul, norm_two_zpow]
    exact mul_le_mul_of_nonneg_left (h t ht) (by positivity)
  · refine err_scale (norm_two_zpow k) (out_scl2 i thr .complex (n := n) trivial e k v t ht) ?_
    rw [← exact_scale]
    congr 1
    funext j
    exact cval_scl2 k v j
  · have h31 : (n:ℝ) ≤ 2 ^ 31 := by exact_mod_cast hn.int.le
    have hb : n * M ≤ (2:ℝ) ^ 1019 := by
      calc n * M ≤ 2 ^ 31 * 2 := mul_le_mul h31 h2 (by linarith) (by positivity)
        _ = 2 ^ 32 := by norm_num
        _ ≤ 2 ^ 1019 := pow_le_pow_right₀ (by norm_num) (by norm_num)
    have := (fftOut_err rounded53_laws i hn.two hn.int.le (one_ge h1) hb (fun t ht => ⟨⟨trivial, trivial⟩, h t ht⟩) thr e t ht).2
    rw [mul_assoc]
    exact this

theorem bluestein_free (i : Target) (thr : Thr) (h1 : 1 ≤ n) (h29 : n ≤ 2 ^ 29) {v : ℕ → Xmm R} (hM : 0 ≤ M)
    (hv : ∀ t < n, ‖cval Rounded.val (v t)‖ ≤ M) (e : Entry) {t : ℕ} (ht : t < n) :
    letI := i.arith R
    ‖cval Rounded.val (blueOutF (Xmm R) thr e n v t) - e.exact n (fun j => cval Rounded.val (v j)) t‖ ≤
      (150 * Nat.clog 2 n + 207) / 2 ^ 52 * (16 * (n * (n * e.factor n))) * M := by
  letI := i.arith R
  refine scale_free (P := fun (v : ℕ → Xmm R) M => ∀ t < n, ‖cval Rounded.val (v t)‖ ≤ M) (sm := scl2)
    (err := fun v => ‖cval Rounded.val (blueOutF (Xmm R) thr e n v t) - e.exact n (fun j => cval Rounded.val (v j)) t‖)
    (fun k v M h t ht => ?_) (fun v M M' hM h t ht => le_trans (h t ht) hM) (fun k v M h => ?_) (fun v M h1' h2 h => ?_) hM hv
  · rw [cval_scl2, norm_mul, norm_two_zpow]
    exact mul_le_mul_of_nonneg_left (h t ht) (by positivity)
  · refine err_scale (norm_two_zpow k) (out_scl2 i thr .bluestein (n := n) h29 e k v t ht) ?_
    rw [← exact_scale]
    congr 1
    funext j
    exact cval_scl2 k v j
  · have hn : (n:ℝ) ≤ 2 ^ 29 := by exact_mod_cast h29
    have hM0 : 0 ≤ M := by linarith
    have hb : n * (n * (n * M)) ≤ (2:ℝ) ^ 1013 := by
      calc n * (n * (n * M)) ≤ (2:ℝ) ^ 29 * (2 ^ 29 * (2 ^ 29 * 2)) := by gcongr
        _ = 2 ^ 88 := by norm_num
        _ ≤ 2 ^ 1013 := pow_le_pow_right₀ (by norm_num) (by norm_num)
    have := (blueOut_err rounded53_laws i h1 h29 (one_ge h1') hb (fun t ht => ⟨⟨trivial, trivial⟩, h t ht⟩) thr e t ht).2
    refine le_trans this (le_of_eq ?_)
    ring

omit [Libm] in
theorem nM_le (h31 : n ≤ 2 ^ 31) (h0 : 0 ≤ M) (h2 : M ≤ 2) : n * M ≤ (2:ℝ) ^ 1016 := by
  have h31 : (n:ℝ) ≤ 2 ^ 31 := by exact_mod_cast h31
  calc n * M ≤ 2 ^ 31 * 2 := mul_le_mul h31 h2 h0 (by positivity)
    _ = 2 ^ 32 := by norm_num
    _ ≤ 2 ^ 1016 := pow_le_pow_right₀ (by norm_num) (by norm_num)

/-- real data times a power of two -/
theorem scl2_doubles (k : ℤ) (d : ℕ → R) : scl2 k (doubles d) = doubles fun t => ⟨2 ^ k * (d t).val⟩ := by
  funext t j
  match j with
  | 0 => rfl
  | 1 =>
    show (⟨2 ^ k * (((0:ℕ):ℝ))⟩ : R) = ⟨((0:ℕ):ℝ)⟩
    rw [Nat.cast_zero, mul_zero]

theorem real_free (i : Target) (thr : Thr) (hn : RealLen n) {d : ℕ → R} (hM : 0 ≤ M) (hd : ∀ t < n, |(d t).val| ≤ M) (e : Entry)
    (he : e ∈ [Entry.fwd, .fwd0, .fwdu, .fwdn]) {t : ℕ} (ht : t < n) :
    letI := i.arith R
    ‖cval Rounded.val (rfftOut (Xmm R) thr e n (doubles d) t) - e.exact n (Spec.ofReal fun j => (d j).val) t‖ ≤
      (errWeight (n / 2) + 84) / 2 ^ 52 * (3 * (n * e.factor n)) * M := by
  letI := i.arith R
  refine scale_free (P := fun (d : ℕ → R) M => ∀ t < n, |(d t).val| ≤ M) (sm := fun k d t => ⟨2 ^ k * (d t).val⟩)
    (err := fun d => ‖cval Rounded.val (rfftOut (Xmm R) thr e n (doubles d) t) - e.exact n (Spec.ofReal fun j => (d j).val) t‖)
    (fun k v M h t ht => ?_) (fun v M M' hM h t ht => le_trans (h t ht) hM) (fun k d M h => ?_) (fun d M h1 h2 h => ?_) hM hd
  · rw [abs_mul, abs_of_pos (by positivity)]
    exact mul_le_mul_of_nonneg_left (h t ht) (by positivity)
  · refine err_scale (norm_two_zpow k) ?_ ?_
    · rw [← scl2_doubles]
      exact out_scl2 i thr .real (n := n) hn e k (doubles d) t ht
    · rw [← exact_scale]
      congr 1
      funext j
      show (((2 ^ k * (d j).val : ℝ)) : ℂ) = _
      push_cast
      rfl
  · have hi := isInv_fwd he
    have ok := twoArrays_ok n (doubles d)
    obtain ⟨out', hc', hb⟩ := C47_real_forward rounded53_laws i thr hn ok.wf ok.arr (twoArrays_alloc _ _) (twoArrays_sep _) (one_ge h1)
      (nM_le (RealLen.le31 hn) (by linarith) h2) (fun t ht => ⟨trivial, h t ht⟩) e he
    have a : RealArgs (twoArrays n (doubles d)) e n (Ptr.base 1) (Ptr.base 2) (doubles d) :=
      ⟨ok.wf, hn, by rw [rfftNeed, hi]; exact ok.arr, ok.arr.alloc, twoArrays_alloc _ _, twoArrays_sep _⟩
    have hc := ComputesIn.toComputes (RFFT.computes (thr := thr) a) (by rw [rfftDirty, hi]; exact le_refl _) (fun _ _ => rfl)
    have := computes_unique (by simp [twoArrays]) hc hc' t ht
    rw [this]
    exact le_trans (hb t ht).2 (le_of_eq (by ring))

/-- half a conjugate symmetric vector `v.2` in an array -/
def HalfOf (n : ℕ) (v : (ℕ → Xmm R) × (ℕ → ℂ)) (M : ℝ) : Prop :=
  Spec.Hermitian n v.2 ∧ ∀ t ≤ n / 2, v.2 t = cval Rounded.val (v.1 t) ∧ ‖cval Rounded.val (v.1 t)‖ ≤ M

theorem inverse_free (i : Target) (thr : Thr) (hn : RealLen n) {v : ℕ → Xmm R} {X : ℕ → ℂ} (hM : 0 ≤ M) (hv : HalfOf n (v, X) M)
    (e : Entry) (he : e ∈ [Entry.inv, .inv0, .invu, .invn]) {t : ℕ} (ht : t < n) :
    letI := i.arith R
    ‖cval Rounded.val (rfftOut (Xmm R) thr e n v t) - e.exact n X t‖ ≤ (errWeight (n / 2) + 84) / 2 ^ 52 * (3 * (n * e.factor n)) * M := by
  letI := i.arith R
  refine scale_free (P := HalfOf n) (sm := fun k v => (scl2 k v.1, fun t => 2 ^ k * v.2 t)) (v := (v, X))
    (err := fun v => ‖cval Rounded.val (rfftOut (Xmm R) thr e n v.1 t) - e.exact n v.2 t‖)
    (fun k v M h => ⟨fun j hj => ?_, fun t ht => ⟨?_, ?_⟩⟩) (fun v M M' hM h => ⟨h.1, fun t ht => ⟨(h.2 t ht).1, le_trans (h.2 t ht).2 hM⟩⟩)
    (fun k v M h => ?_) (fun v M h1 h2 h => ?_) hM hv
  · show 2 ^ k * v.2 ((n - j) % n) = (starRingEnd ℂ) (2 ^ k * v.2 j)
    rw [map_mul, h.1 j hj, map_zpow₀, map_ofNat]
  · show 2 ^ k * v.2 t = _
    rw [cval_scl2, (h.2 t ht).1]
  · rw [cval_scl2, norm_mul, norm_two_zpow]
    exact mul_le_mul_of_nonneg_left (h.2 t ht).2 (by positivity)
  · exact err_scale (norm_two_zpow k) (out_scl2 i thr .real (n := n) hn e k v.1 t ht) (exact_scale e n v.2 (2 ^ k) t)
  · have hi := isInv_inv he
    obtain ⟨v, X⟩ := v
    have ok := twoArrays_ok n v
    have arr : Arr (twoArrays n v).heap (Ptr.base 1) (n / 2 + 1) v := fun j hj => ok.arr j (by
      have := hn.even; have := hn.pos; omega)
    obtain ⟨out', hc', hb⟩ := C47_real_inverse rounded53_laws i thr hn ok.wf arr ok.arr.alloc (twoArrays_alloc _ _) (twoArrays_sep _) (one_ge h1)
      (nM_le (RealLen.le31 hn) (by linarith) h2) (fun t ht => ⟨⟨trivial, trivial⟩, (h.2 t ht).2⟩) h.1 (fun t ht => (h.2 t ht).1) e he
    have a : RealArgs (twoArrays n v) e n (Ptr.base 1) (Ptr.base 2) v :=
      ⟨ok.wf, hn, by rw [rfftNeed, hi]; exact arr, ok.arr.alloc, twoArrays_alloc _ _, twoArrays_sep _⟩
    have hc : ComputesIn (realFFT (Xmm R) thr) n [(e, Ptr.base 1, Ptr.base 2)] (twoArrays n v) (Region (Ptr.base 1) n) (Ptr.base 2) n
        (rfftOut (Xmm R) thr e n v) := by
      obtain ⟨h1, h2⟩ := RFFT.computes (thr := thr) a
      refine ⟨Act.wp_mono h1 ?_, h2⟩
      rintro ok w' ⟨a', b, c⟩
      refine ⟨a', fun hok => ⟨(b hok).1, fun l hl => (b hok).2 l fun h => hl ?_⟩, c⟩
      rw [rfftDirty, hi] at h
      rcases h with h | h | h
      · exact Or.inl h
      · exact Or.inr h
      · exact Or.inl h
    have := computesIn_unique (by simp [twoArrays]) hc hc' t ht
    show ‖cval Rounded.val (rfftOut (Xmm R) thr e n v t) - e.exact n X t‖ ≤ _
    rw [this, cval_doubles rounded53_laws out' t]
    exact le_trans (hb t ht).2 (le_of_eq (by ring))

omit [Libm] in
theorem dct_scale (e : DctEntry) (n : ℕ) (u : ℕ → ℝ) (s : ℝ) (t : ℕ) : e.exact n (fun j => s * u j) t = s * e.exact n u t := by
  have h1 : Spec.dct n (fun j => s * u j) t = s * Spec.dct n u t := by
    unfold Spec.dct
    rw [mul_sum]
    exact sum_congr rfl fun j _ => by ring
  have h2 : Spec.dct3 n (fun j => s * u j) t = s * Spec.dct3 n u t := by
    unfold Spec.dct3
    rw [mul_sum]
    exact sum_congr rfl fun j _ => by ring
  cases e <;> simp only [DctEntry.exact, h1, h2] <;> ring

theorem dct_free (i : Target) (thr : Thr) (hn : RealLen n) (h30 : n < 2 ^ 30) {d : ℕ → R} (hM : 0 ≤ M) (hd : ∀ t < n, |(d t).val| ≤ M)
    (e : DctEntry) {t : ℕ} (ht : t < n) :
    letI := i.arith R
    |(dctOut (Xmm R) thr e n (doubles d) t 0).val - e.exact n (fun j => (d j).val) t| ≤
      (errWeight (n / 2) + 117) / 2 ^ 52 * (9 / 2 * (n * e.factor n)) * M := by
  letI := i.arith R
  refine scale_free (P := fun (d : ℕ → R) M => ∀ t < n, |(d t).val| ≤ M) (sm := fun k d t => ⟨2 ^ k * (d t).val⟩)
    (err := fun d => |(dctOut (Xmm R) thr e n (doubles d) t 0).val - e.exact n (fun j => (d j).val) t|)
    (fun k v M h t ht => ?_) (fun v M M' hM h t ht => le_trans (h t ht) hM) (fun k d M h => ?_) (fun d M h1 h2 h => ?_) hM hd
  · rw [abs_mul, abs_of_pos (by positivity)]
    exact mul_le_mul_of_nonneg_left (h t ht) (by positivity)
  · have h1 := congrArg Complex.re (out_scl2 i thr .dct (n := n) hn e k (doubles d) t ht)
    have h2 : ((2:ℂ) ^ k) = (((2:ℝ) ^ k : ℝ) : ℂ) := by push_cast; rfl
    rw [h2, Complex.re_ofReal_mul, scl2_doubles] at h1
    have h1 : (dctOut (Xmm R) thr e n (doubles fun t => ⟨2 ^ k * (d t).val⟩) t 0).val = 2 ^ k * (dctOut (Xmm R) thr e n (doubles d) t 0).val := h1
    rw [h1, dct_scale, ← mul_sub, abs_mul, abs_of_pos (by positivity)]
  · have ok := oneArray_ok n (doubles d)
    obtain ⟨out', hc', hb⟩ := C47_dct rounded53_laws i thr hn h30 ok.wf ok.arr (one_ge h1)
      (nM_le (RealLen.le31 hn) (by linarith) h2) (fun t ht => ⟨trivial, h t ht⟩) e
    have hc := ComputesIn.toComputes (DCT.computes (thr := thr) ok.wf hn h30 ok.arr [e]) (Set.empty_subset _) (fun _ _ => rfl)
    have := congrFun (computes_unique (by simp [oneArray]) hc hc' t ht) 0
    have this : dctOut (Xmm R) thr e n (doubles d) t 0 = out' t := this
    rw [this]
    exact le_trans (hb t ht).2 (le_of_eq (by ring))

end free

/-! ### IEEE doubles -/

/-- the values of doubles, as numbers with unlimited exponent -/
noncomputable def vals (v : ℕ → Xmm Dbl64) : ℕ → Xmm R := fun t j => ⟨(v t j).val⟩

theorem flags_out (i : Target) (thr : Thr) (k : Kind) {n : ℕ} (hn : lenOK k n) (f : k.Fn) (v : ℕ → Xmm Dbl64) (vf : ℕ → Xmm Flagged)
    (hf : ∀ t j, vf t j = Flagged.input (v t j)) :
    letI := i.arith Dbl64
    letI := i.arith Flagged
    letI := i.arith R
    ∀ t < n, ∀ j, (k.out (Xmm Flagged) thr n f vf t j).d = k.out (Xmm Dbl64) thr n f v t j ∧
      (¬ (k.out (Xmm Flagged) thr n f vf t j).raised → ∃ z, k.out (Xmm Dbl64) thr n f v t j = ⟨.num (k.out (Xmm R) thr n f (vals v) t j).val z⟩) := by
  letI := i.arith Dbl64
  letI := i.arith Flagged
  letI := i.arith R
  obtain rfl : vf = fun t j => Flagged.input (v t j) := funext fun t => funext fun j => hf t j
  have h1 := out_par (Target.parLaws linked_dbl i) thr k hn f (v := fun t j => Flagged.input (v t j)) (v' := v) (fun t _ => ⟨rfl, rfl⟩)
  have h2 := out_par (Target.parLaws linked_quiet i) thr k hn f (v := fun t j => Flagged.input (v t j)) (v' := vals v)
    (fun t ht => ⟨input_quiet (.inr rfl), input_quiet (.inr rfl)⟩)
  intro t ht j
  have e : (k.out (Xmm Flagged) thr n f (fun t j => Flagged.input (v t j)) t j).d = k.out (Xmm Dbl64) thr n f v t j := by
    have := h1 t ht
    match j with
    | 0 => exact this.1
    | 1 => exact this.2
  have q : Quiet (k.out (Xmm Flagged) thr n f (fun t j => Flagged.input (v t j)) t j) (k.out (Xmm R) thr n f (vals v) t j) := by
    have := h2 t ht
    match j with
    | 0 => exact this.1
    | 1 => exact this.2
  refine ⟨e, fun hq => ?_⟩
  obtain ⟨z, ez⟩ := q.num hq
  exact ⟨z, by rw [← e, ez]⟩

omit [Libm] in
/-- a part of the result for which no flag was raised -/
theorem quiet_val {a : Xmm Dbl64} {b : Xmm Flagged} {c : Xmm R} (h : ∀ j, (b j).d = a j ∧ (¬ (b j).raised → ∃ z, a j = ⟨.num (c j).val z⟩))
    (hq : ∀ j, ¬ (b j).raised) : (∀ j, ¬ (a j).notFinite) ∧ cval Ieee.val a = cval Rounded.val c := by
  have h1 : ∀ j, ∃ z, a j = ⟨.num (c j).val z⟩ := fun j => (h j).2 (hq j)
  refine ⟨fun j hf => ?_, ?_⟩
  · obtain ⟨z, e⟩ := h1 j
    exact hf _ _ (by rw [e])
  · obtain ⟨z, e⟩ := h1 0
    obtain ⟨z', e'⟩ := h1 1
    unfold cval
    rw [e, e']
    rfl

section
variable {n : ℕ} {M : ℝ} {w : World (Xmm Dbl64)} {wf : World (Xmm Flagged)} {x xf y yf : Ptr}

/-- C80: ComplexFFT with IEEE doubles, inputs of any size: the elements of the result for which no overflow, underflow, division by
zero or invalid operation was signalled are finite and have the accuracy of C46. -/
theorem C80_complex (i : Target) (thr : Thr) (hn : ValidLen n) {v : ℕ → Xmm Dbl64} (hx : UserArray w x n v)
    (hxf : UserArray wf xf n fun t j => Flagged.input (v t j)) (hv : ∀ t < n, ‖cval Ieee.val (v t)‖ ≤ M) (e : Entry) :
    letI := i.arith Dbl64
    letI := i.arith Flagged
    ∃ (out : ℕ → Xmm Dbl64) (outf : ℕ → Xmm Flagged), Computes (complexFFT (Xmm Dbl64) thr) n [(e, x)] w x n out ∧
      Computes (complexFFT (Xmm Flagged) thr) n [(e, xf)] wf xf n outf ∧
      ∀ t < n, (∀ j, (outf t j).d = out t j) ∧ ((∀ j, ¬ (outf t j).raised) → (∀ j, ¬ (out t j).notFinite) ∧
        ‖cval Ieee.val (out t) - e.exact n (fun j => cval Ieee.val (v j)) t‖ ≤ errWeight n / 2 ^ 52 * (e.factor n * n * M)) := by
  letI := i.arith Dbl64
  letI := i.arith Flagged
  letI := i.arith R
  have h2 := hn.two
  refine ⟨_, _, ⟨FFT.calls (es := [e]) hn hx, FFT.lifetime_noFail _ (by omega) _ (lenNat_calls _)⟩,
    ⟨FFT.calls (es := [e]) hn hxf, FFT.lifetime_noFail _ (by omega) _ (lenNat_calls _)⟩, fun t ht => ?_⟩
  have h := flags_out i thr .complex (n := n) trivial e v _ (fun _ _ => rfl) t ht
  refine ⟨fun j => (h j).1, fun hq => ?_⟩
  obtain ⟨h3, h4⟩ := quiet_val h hq
  refine ⟨h3, ?_⟩
  have hM : 0 ≤ M := le_trans (norm_nonneg _) (hv 0 (by omega))
  have := complex_free i thr hn (v := vals v) hM hv e ht
  rw [mul_assoc] at this
  exact (congrArg (fun z : ℂ => ‖z - e.exact n (fun j => cval Ieee.val (v j)) t‖) h4).trans_le this

/-- C80: Bluestein, with the bound of C48. -/
theorem C80_bluestein (i : Target) (thr : Thr) (h1 : 1 ≤ n) (h29 : n ≤ 2 ^ 29) {v : ℕ → Xmm Dbl64} (hx : UserArray w x n v)
    (hxf : UserArray wf xf n fun t j => Flagged.input (v t j)) (hv : ∀ t < n, ‖cval Ieee.val (v t)‖ ≤ M) (e : Entry) :
    letI := i.arith Dbl64
    letI := i.arith Flagged
    ∃ (out : ℕ → Xmm Dbl64) (outf : ℕ → Xmm Flagged), Computes (bluesteinFFT (Xmm Dbl64) thr) n [(e, x)] w x n out ∧
      Computes (bluesteinFFT (Xmm Flagged) thr) n [(e, xf)] wf xf n outf ∧
      ∀ t < n, (∀ j, (outf t j).d = out t j) ∧ ((∀ j, ¬ (outf t j).raised) → (∀ j, ¬ (out t j).notFinite) ∧
        ‖cval Ieee.val (out t) - e.exact n (fun j => cval Ieee.val (v j)) t‖ ≤
          (150 * Nat.clog 2 n + 207) / 2 ^ 52 * (16 * (n * (n * (e.factor n * M))))) := by
  letI := i.arith Dbl64
  letI := i.arith Flagged
  letI := i.arith R
  refine ⟨_, _, ComputesIn.toComputes (Bluestein.computes (thr := thr) hx.wf h1 h29 hx.arr [e]) (Set.empty_subset _) (fun _ _ => rfl),
    ComputesIn.toComputes (Bluestein.computes (thr := thr) hxf.wf h1 h29 hxf.arr [e]) (Set.empty_subset _) (fun _ _ => rfl), fun t ht => ?_⟩
  have h := flags_out i thr .bluestein (n := n) h29 e v _ (fun _ _ => rfl) t ht
  refine ⟨fun j => (h j).1, fun hq => ?_⟩
  obtain ⟨h3, h4⟩ := quiet_val h hq
  refine ⟨h3, ?_⟩
  have hM : 0 ≤ M := le_trans (norm_nonneg _) (hv 0 (by omega))
  have := bluestein_free i thr h1 h29 (v := vals v) hM hv e ht
  refine (congrArg (fun z : ℂ => ‖z - e.exact n (fun j => cval Ieee.val (v j)) t‖) h4).trans_le (le_trans this (le_of_eq ?_))
  ring

/-- doubles from outside as real data -/
theorem input_doubles (d : ℕ → Dbl64) (t : ℕ) (j : Fin 2) : doubles (fun t => Flagged.input (d t)) t j = Flagged.input (doubles d t j) := by
  match j with
  | 0 => rfl
  | 1 =>
    show (⟨fofNat 0, 2 ^ 53 ≤ 0⟩ : Flagged) = ⟨fofNat 0, Ieee.notFinite (fofNat 0)⟩
    have h : ¬ Ieee.notFinite (fofNat 0 : Dbl64) := fun h => by
      refine h 0 false ?_
      show Dbl.rnd rnd64 maxDbl ((0:ℕ):ℝ) false = _
      unfold Dbl.rnd
      rw [Nat.cast_zero, rnd64_zero, abs_zero, if_neg (not_lt.2 (by unfold maxDbl; norm_num)), if_pos rfl]
    rw [eq_false h, eq_false (show ¬ 2 ^ 53 ≤ 0 by norm_num)]

theorem vals_doubles (d : ℕ → Dbl64) : vals (doubles d) = doubles fun t => ⟨(d t).val⟩ := by
  funext t j
  match j with
  | 0 => rfl
  | 1 =>
    show (⟨Ieee.val (⟨Dbl.rnd rnd64 maxDbl ((0:ℕ):ℝ) false⟩ : Dbl64)⟩ : R) = ⟨((0:ℕ):ℝ)⟩
    unfold Dbl.rnd
    rw [Nat.cast_zero, rnd64_zero, abs_zero, if_neg (not_lt.2 (by unfold maxDbl; norm_num)), if_pos rfl]
    rfl

/-- C80: RealFFT, forward, with the bound of C47. -/
theorem C80_real_forward (i : Target) (thr : Thr) (hn : RealLen n) {d : ℕ → Dbl64} (hw : w.WF) (hx : Arr w.heap x n (doubles d))
    (hy : Alloc w.heap y n) (hxy : Sep x n y n) (hwf : wf.WF) (hxf : Arr wf.heap xf n (doubles fun t => Flagged.input (d t)))
    (hyf : Alloc wf.heap yf n) (hxyf : Sep xf n yf n) (hd : ∀ t < n, |(d t).val| ≤ M) (e : Entry)
    (he : e ∈ [Entry.fwd, .fwd0, .fwdu, .fwdn]) :
    letI := i.arith Dbl64
    letI := i.arith Flagged
    ∃ (out : ℕ → Xmm Dbl64) (outf : ℕ → Xmm Flagged), Computes (realFFT (Xmm Dbl64) thr) n [(e, x, y)] w y n out ∧
      Computes (realFFT (Xmm Flagged) thr) n [(e, xf, yf)] wf yf n outf ∧
      ∀ t < n, (∀ j, (outf t j).d = out t j) ∧ ((∀ j, ¬ (outf t j).raised) → (∀ j, ¬ (out t j).notFinite) ∧
        ‖cval Ieee.val (out t) - e.exact n (Spec.ofReal fun j => (d j).val) t‖ ≤
          (errWeight (n / 2) + 84) / 2 ^ 52 * (3 * (n * (e.factor n * M)))) := by
  letI := i.arith Dbl64
  letI := i.arith Flagged
  letI := i.arith R
  have hi := isInv_fwd he
  have a : RealArgs w e n x y (doubles d) := ⟨hw, hn, by rw [rfftNeed, hi]; exact hx, hx.alloc, hy, hxy⟩
  have af : RealArgs wf e n xf yf (doubles fun t => Flagged.input (d t)) := ⟨hwf, hn, by rw [rfftNeed, hi]; exact hxf, hxf.alloc, hyf, hxyf⟩
  refine ⟨_, _, ComputesIn.toComputes (RFFT.computes (thr := thr) a) (by rw [rfftDirty, hi]; exact le_refl _) (fun _ _ => rfl),
    ComputesIn.toComputes (RFFT.computes (thr := thr) af) (by rw [rfftDirty, hi]; exact le_refl _) (fun _ _ => rfl), fun t ht => ?_⟩
  have h := flags_out i thr .real (n := n) hn e (doubles d) _ (input_doubles d) t ht
  refine ⟨fun j => (h j).1, fun hq => ?_⟩
  obtain ⟨h3, h4⟩ := quiet_val h hq
  refine ⟨h3, ?_⟩
  have hM : 0 ≤ M := le_trans (abs_nonneg _) (hd 0 hn.pos)
  have := real_free i thr hn (d := fun t => ⟨(d t).val⟩) hM hd e he ht
  rw [vals_doubles] at h4
  refine (congrArg (fun z : ℂ => ‖z - e.exact n (Spec.ofReal fun j => (d j).val) t‖) h4).trans_le (le_trans this (le_of_eq ?_))
  ring

/-- C80: RealFFT, inverse, with the bound of C47. -/
theorem C80_real_inverse (i : Target) (thr : Thr) (hn : RealLen n) {v : ℕ → Xmm Dbl64} (hw : w.WF) (hx : Arr w.heap x (n / 2 + 1) v)
    (hx' : Alloc w.heap x n) (hy : Alloc w.heap y n) (hxy : Sep x n y n) (hwf : wf.WF)
    (hxf : Arr wf.heap xf (n / 2 + 1) fun t j => Flagged.input (v t j)) (hxf' : Alloc wf.heap xf n) (hyf : Alloc wf.heap yf n)
    (hxyf : Sep xf n yf n) {X : ℕ → ℂ} (hX : Spec.Hermitian n X)
    (hv : ∀ t ≤ n / 2, X t = cval Ieee.val (v t) ∧ ‖cval Ieee.val (v t)‖ ≤ M) (e : Entry) (he : e ∈ [Entry.inv, .inv0, .invu, .invn]) :
    letI := i.arith Dbl64
    letI := i.arith Flagged
    ∃ (out : ℕ → Dbl64) (outf : ℕ → Flagged),
      ComputesIn (realFFT (Xmm Dbl64) thr) n [(e, x, y)] w (Region x n) y n (doubles out) ∧
      ComputesIn (realFFT (Xmm Flagged) thr) n [(e, xf, yf)] wf (Region xf n) yf n (doubles outf) ∧
      ∀ t < n, (outf t).d = out t ∧ (¬ (outf t).raised → ¬ (out t).notFinite ∧
        ‖((out t).val : ℂ) - e.exact n X t‖ ≤ (errWeight (n / 2) + 84) / 2 ^ 52 * (3 * (n * (e.factor n * M)))) := by
  letI := i.arith Dbl64
  letI := i.arith Flagged
  letI := i.arith R
  have hi := isInv_inv he
  have run : ∀ {F : Type} [FArith F] [Inhabited F] {w : World (Xmm F)} {x y : Ptr} {v : ℕ → Xmm F} (hw : w.WF)
      (hx : Arr w.heap x (n / 2 + 1) v) (hx' : Alloc w.heap x n) (hy : Alloc w.heap y n) (hxy : Sep x n y n), letI := i.arith F
      ComputesIn (realFFT (Xmm F) thr) n [(e, x, y)] w (Region x n) y n (doubles fun t => rfftOut (Xmm F) thr e n v t 0) := by
    intro F _ _ w x y v hw hx hx' hy hxy
    letI := i.arith F
    have a : RealArgs w e n x y v := ⟨hw, hn, by rw [rfftNeed, hi]; exact hx, hx', hy, hxy⟩
    obtain ⟨h1, h2⟩ := RFFT.computes (thr := thr) a
    refine ⟨Act.wp_mono h1 ?_, h2⟩
    rintro ok w' ⟨a', b, c⟩
    refine ⟨a', fun hok => ⟨(b hok).1.congr fun t ht => (rfft_cell i thr hi n v t).symm, fun l hl => (b hok).2 l fun h => hl ?_⟩, c⟩
    rw [rfftDirty, hi] at h
    rcases h with h | h | h
    · exact Or.inl h
    · exact Or.inr h
    · exact Or.inl h
  refine ⟨_, _, run hw hx hx' hy hxy, run hwf hxf hxf' hyf hxyf, fun t ht => ?_⟩
  have h := flags_out i thr .real (n := n) hn e v _ (fun _ _ => rfl) t ht 0
  refine ⟨h.1, fun hq => ?_⟩
  obtain ⟨z, ez⟩ := h.2 hq
  have ez : rfftOut (Xmm Dbl64) thr e n v t 0 = ⟨.num (rfftOut (Xmm R) thr e n (vals v) t 0).val z⟩ := ez
  have hM : 0 ≤ M := le_trans (norm_nonneg _) (hv 0 (Nat.zero_le _)).2
  have := inverse_free i thr hn (v := vals v) (X := X) hM ⟨hX, hv⟩ e he ht
  rw [← rfft_cell i thr hi n (vals v) t, cval_doubles rounded53_laws] at this
  rw [ez]
  refine ⟨fun hf => hf _ _ rfl, le_trans this (le_of_eq ?_)⟩
  ring

/-- C80: RealDCT, with the bound of C47. -/
theorem C80_dct (i : Target) (thr : Thr) (hn : RealLen n) (h30 : n < 2 ^ 30) {d : ℕ → Dbl64} (hx : UserArray w x n (doubles d))
    (hxf : UserArray wf xf n (doubles fun t => Flagged.input (d t))) (hd : ∀ t < n, |(d t).val| ≤ M) (e : DctEntry) :
    letI := i.arith Dbl64
    letI := i.arith Flagged
    ∃ (out : ℕ → Dbl64) (outf : ℕ → Flagged), Computes (realDCT (Xmm Dbl64) thr) n [(e, x)] w x n (doubles out) ∧
      Computes (realDCT (Xmm Flagged) thr) n [(e, xf)] wf xf n (doubles outf) ∧
      ∀ t < n, (outf t).d = out t ∧ (¬ (outf t).raised → ¬ (out t).notFinite ∧
        |(out t).val - e.exact n (fun j => (d j).val) t| ≤ (errWeight (n / 2) + 117) / 2 ^ 52 * (9 / 2 * (n * (e.factor n * M)))) := by
  letI := i.arith Dbl64
  letI := i.arith Flagged
  letI := i.arith R
  have c1 := fun t => (dct_cell (F := Dbl64) i thr e n (v := doubles d) (t := t) ⟨_, rfl⟩).1
  have c2 := fun t => (dct_cell (F := Flagged) i thr e n (v := doubles fun t => Flagged.input (d t)) (t := t) ⟨_, rfl⟩).1
  refine ⟨fun t => dctOut (Xmm Dbl64) thr e n (doubles d) t 0, fun t => dctOut (Xmm Flagged) thr e n (doubles fun t => Flagged.input (d t)) t 0,
    ComputesIn.toComputes (DCT.computes (thr := thr) hx.wf hn h30 hx.arr [e]) (Set.empty_subset _) (fun t _ => (c1 t).symm),
    ComputesIn.toComputes (DCT.computes (thr := thr) hxf.wf hn h30 hxf.arr [e]) (Set.empty_subset _) (fun t _ => (c2 t).symm), fun t ht => ?_⟩
  have h := flags_out i thr .dct (n := n) hn e (doubles d) _ (input_doubles d) t ht 0
  refine ⟨h.1, fun hq => ?_⟩
  obtain ⟨z, ez⟩ := h.2 hq
  have ez : dctOut (Xmm Dbl64) thr e n (doubles d) t 0 = ⟨.num (dctOut (Xmm R) thr e n (vals (doubles d)) t 0).val z⟩ := ez
  have hM : 0 ≤ M := le_trans (abs_nonneg _) (hd 0 hn.pos)
  have := dct_free i thr hn h30 (d := fun t => ⟨(d t).val⟩) hM hd e ht
  beta_reduce
  rw [ez, vals_doubles]
  refine ⟨fun hf => hf _ _ rfl, le_trans this (le_of_eq ?_)⟩
  ring

end

/-! ### Examples -/

/-- three samples of size `2^k`: `fwd0` raises no flag in element 0 -/
theorem three_quiet (i : Target) (thr : Thr) {k : ℕ} (hk : k ≤ 1021) :
    letI := i.arith Flagged
    fftOut (Xmm Flagged) thr Entry.fwd0.isInv Entry.fwd0.mode 3
      (fun _ j => Flagged.input ((![⟨.num (2 ^ k) false⟩, ⟨.num 0 false⟩] : Xmm Dbl64) j)) 0 0 = ⟨⟨.num (3 * 2 ^ k) false⟩, False⟩ := by
  letI := i.arith Dbl64
  letI := i.arith Flagged
  letI := i.arith R
  have e1 : (2:ℝ) ^ k + 2 ^ k = ((2:ℤ):ℝ) * 2 ^ (k:ℤ) := by push_cast; rw [zpow_natCast]; ring
  have e2 : (2:ℝ) ^ k + 2 ^ k + 2 ^ k = ((3:ℤ):ℝ) * 2 ^ (k:ℤ) := by push_cast; rw [zpow_natCast]; ring
  have r1 : rnd64 ((2:ℝ) ^ k + 2 ^ k) = 2 ^ k + 2 ^ k := by rw [e1]; exact rnd64_repr (by norm_num) (by omega)
  have r2 : rnd64 ((2:ℝ) ^ k + 2 ^ k + 2 ^ k) = 2 ^ k + 2 ^ k + 2 ^ k := by rw [e2]; exact rnd64_repr (by norm_num) (by omega)
  have top : (2:ℝ) ^ k + 2 ^ k + 2 ^ k ≤ maxDbl := by
    have h := pow_le_pow_right₀ (show (1:ℝ) ≤ 2 by norm_num) hk
    unfold maxDbl
    rw [show (2:ℝ) ^ 1023 = 4 * 2 ^ 1021 by rw [show (1023:ℕ) = 2 + 1021 from rfl, pow_add]; norm_num]
    have : (0:ℝ) < 2 ^ 1021 := by positivity
    generalize (2:ℝ) ^ 1021 = a at *
    generalize (2:ℝ) ^ k = b at *
    norm_num
    linarith
  have pos : (0:ℝ) < 2 ^ k := by positivity
  clear e1 e2
  generalize (2:ℝ) ^ k = A at *
  set v : ℕ → Xmm Dbl64 := fun _ => ![⟨.num A false⟩, ⟨.num 0 false⟩] with hv
  have hd : dispatch (logOf 3) = some .mixed := by
    rw [logOf_none fun k => ?_]
    · rfl
    · rcases k with _ | _ | k
      · norm_num
      · norm_num
      · rw [pow_succ, pow_succ]; omega
  have hadd : ∀ a b : Xmm Flagged, (addpz a b : Xmm Flagged) 0 = fadd (a 0) (b 0) := fun a b => by
    show (i.xmm Flagged).addpz a b 0 = _
    unfold Target.xmm
    split
    · split <;> rfl
    · rfl
  have hout : fftOut (Xmm Flagged) thr Entry.fwd0.isInv Entry.fwd0.mode 3 (fun t j => Flagged.input (v t j)) 0 =
      addpz (addpz (fun j => Flagged.input (v 0 j)) (fun j => Flagged.input (v 1 j))) (fun j => Flagged.input (v 2 j)) := by
    unfold fftOut
    rw [hd]
    show mixScale 3 .scale_1 (mixRec false 3 _ 3 1 _ 0) = _
    rw [mixRec.eq_def]
    rfl
  have s1 : fadd (⟨.num A false⟩ : Dbl64) ⟨.num A false⟩ = ⟨.num (A + A) false⟩ := by
    show (⟨Dbl.rnd rnd64 maxDbl (A + A) _⟩ : Dbl64) = _
    unfold Dbl.rnd
    rw [r1, abs_of_pos (by linarith), if_neg (not_lt.2 (by linarith)), if_neg (by linarith), decide_eq_false (by linarith)]
  have s2 : fadd (⟨.num (A + A) false⟩ : Dbl64) ⟨.num A false⟩ = ⟨.num (A + A + A) false⟩ := by
    show (⟨Dbl.rnd rnd64 maxDbl (A + A + A) _⟩ : Dbl64) = _
    unfold Dbl.rnd
    rw [r2, abs_of_pos (by linarith), if_neg (not_lt.2 (by linarith)), if_neg (by linarith), decide_eq_false (by linarith)]
  have nr : ∀ x y : ℝ, rnd64 x = x → ¬ raises x ⟨.num y false⟩ := fun x y hx h => by
    rcases h with h | ⟨-, h⟩
    · exact h _ _ rfl
    · exact h hx
  have hin : ∀ t, Flagged.input (v t 0) = ⟨⟨.num A false⟩, False⟩ := fun t => by
    show (⟨⟨.num A false⟩, Ieee.notFinite (⟨.num A false⟩ : Dbl64)⟩ : Flagged) = _
    rw [eq_false (show ¬ Ieee.notFinite (⟨.num A false⟩ : Dbl64) from fun h => h _ _ rfl)]
  rw [show 3 * A = A + A + A by ring]
  refine (congrFun hout 0).trans ?_
  rw [hadd, hadd]
  simp only [hin]
  show (⟨fadd (fadd (⟨.num A false⟩ : Dbl64) ⟨.num A false⟩) ⟨.num A false⟩,
    (False ∨ False ∨ raises (A + A) (fadd (⟨.num A false⟩ : Dbl64) ⟨.num A false⟩)) ∨ False ∨
    raises ((fadd (⟨.num A false⟩ : Dbl64) ⟨.num A false⟩).val + A)
      (fadd (fadd (⟨.num A false⟩ : Dbl64) ⟨.num A false⟩) ⟨.num A false⟩)⟩ : Flagged) = _
  rw [s1, s2, eq_false (nr _ _ r1)]
  rw [show (⟨.num (A + A) false⟩ : Dbl64).val = A + A from rfl, eq_false (nr _ _ r2)]
  simp

/-- samples of size `2^1021`, beyond the range of C46 -/
example (i : Target) (thr : Thr) : letI := i.arith Dbl64
    letI := i.arith Flagged
    ∃ (out : ℕ → Xmm Dbl64) (outf : ℕ → Xmm Flagged),
      Computes (complexFFT (Xmm Dbl64) thr) 3 [(.fwd0, Ptr.base 1)] (oneArray 3 fun _ => ![⟨.num (2 ^ 1021) false⟩, ⟨.num 0 false⟩]) (Ptr.base 1) 3 out ∧
      Computes (complexFFT (Xmm Flagged) thr) 3 [(.fwd0, Ptr.base 1)]
        (oneArray 3 fun _ j => Flagged.input ((![⟨.num (2 ^ 1021) false⟩, ⟨.num 0 false⟩] : Xmm Dbl64) j)) (Ptr.base 1) 3 outf ∧
      ¬ (outf 0 0).raised ∧ (out 0 0).val = 3 * 2 ^ 1021 := by
  letI := i.arith Dbl64
  letI := i.arith Flagged
  letI := i.arith R
  have h3 : ValidLen 3 := validLen_of_le (by omega) (by omega)
  have key := three_quiet i thr (le_refl 1021)
  set v : ℕ → Xmm Dbl64 := fun _ => ![⟨.num (2 ^ 1021) false⟩, ⟨.num 0 false⟩] with hv
  refine ⟨_, _, ⟨FFT.calls (es := [.fwd0]) h3 (oneArray_ok 3 v), FFT.lifetime_noFail _ (by omega) _ (lenNat_calls _)⟩,
    ⟨FFT.calls (es := [.fwd0]) h3 (oneArray_ok 3 fun t j => Flagged.input (v t j)), FFT.lifetime_noFail _ (by omega) _ (lenNat_calls _)⟩, ?_, ?_⟩
  · intro hr
    have hr : (fftOut (Xmm Flagged) thr Entry.fwd0.isInv Entry.fwd0.mode 3 (fun t j => Flagged.input (v t j)) 0 0).raised := hr
    rw [key] at hr
    exact hr
  · have h1 : (fftOut (Xmm Flagged) thr Entry.fwd0.isInv Entry.fwd0.mode 3 (fun t j => Flagged.input (v t j)) 0 0).d =
      fftOut (Xmm Dbl64) thr Entry.fwd0.isInv Entry.fwd0.mode 3 v 0 0 :=
      (flags_out i thr .complex (n := 3) trivial .fwd0 v _ (fun _ _ => rfl) 0 (by norm_num) 0).1
    show (fftOut (Xmm Dbl64) thr Entry.fwd0.isInv Entry.fwd0.mode 3 v 0 0).val = _
    rw [← h1, key]
    rfl

end OTFFT.Props
