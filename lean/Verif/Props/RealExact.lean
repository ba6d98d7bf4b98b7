/-
C55 and C92 for both directions of RealFFT in exact arithmetic.
-/
import Verif.Props.Resample

namespace OTFFT.Props
open OTFFT Finset

variable {n m : ℕ}

/-- `u ↦ U` by the call `e` of a RealFFT object of length `n`, in exact arithmetic.  Forward: `u` is real, and wherever the
program has it in an input array, the object writes `U` to the output array.  Inverse: `u` is Hermitian, and wherever the
program has its first `n / 2 + 1` entries, the object writes `U`, using only the input array as work area. -/
def RealTakes (thr : Thr) (n : ℕ) (e : Entry) (u U : ℕ → ℂ) : Prop :=
  (e ∈ [Entry.fwd, .fwd0, .fwdu, .fwdn] ∧ ∃ r : ℕ → ℝ, (∀ t < n, (r t : ℂ) = u t) ∧
    ∀ w x y, FwdArgs w n x y r → Computes (realFFT ℂ thr) n [(e, x, y)] w y n U) ∨
  (e ∈ [Entry.inv, .inv0, .invu, .invn] ∧ Spec.Hermitian n u ∧
    ∀ w x y, InvArgs w n x y u → ComputesIn (realFFT ℂ thr) n [(e, x, y)] w (Region x n) y n U)

theorem twoArrays_inv (hn : RealLen n) {X : ℕ → ℂ} (h : Spec.Hermitian n X) :
    InvArgs (twoArrays n X) n (Ptr.base 1) (Ptr.base 2) X where
  wf := (twoArrays_ok n X).wf
  len := hn
  herm := h
  arr := fun j hj => (twoArrays_ok n X).arr j (by have := hn.even; have := hn.pos; omega)
  roomx := (twoArrays_ok n X).arr.alloc
  roomy := twoArrays_alloc _ _
  sep := twoArrays_sep _

theorem realTakes_exact (thr : Thr) (hn : RealLen n) {e : Entry} {u U : ℕ → ℂ} (h : RealTakes thr n e u U) :
    ∀ k < n, U k = e.exact n u k := by
  intro k hk
  rcases h with ⟨he, r, hr, hc⟩ | ⟨he, hu, hc⟩
  · have hi : e.isInv = false := by
      simp only [List.mem_cons, List.not_mem_nil, or_false] at he
      rcases he with rfl | rfl | rfl | rfl <;> rfl
    have a := twoArrays_fwd hn r
    have h1 := Computes_unique (by simp [twoArrays]) (hc _ _ _ a) (real_fwd thr a e hi) k hk
    rw [h1, exact_eq, hi, xdft_congr false (v := Spec.ofReal r) fun t ht => (hr t ht).symm]
    rfl
  · have hi : e.isInv = true := by
      simp only [List.mem_cons, List.not_mem_nil, or_false] at he
      rcases he with rfl | rfl | rfl | rfl <;> rfl
    have a := twoArrays_inv hn hu
    have h1 := computesIn_unique (by simp [twoArrays]) (hc _ _ _ a) (real_inv thr a e hi) k hk
    rw [h1, exact_eq, hi]
    rfl

/-- every real vector is taken somewhere by every forward entry point, every Hermitian one by every inverse entry point -/
theorem realTakes_fwd (thr : Thr) {e : Entry} (he : e ∈ [Entry.fwd, .fwd0, .fwdu, .fwdn]) (r : ℕ → ℝ) :
    ∃ U, RealTakes thr n e (Spec.ofReal r) U :=
  ⟨_, .inl ⟨he, r, fun _ _ => rfl, fun w x y a => real_fwd thr a e (by
    simp only [List.mem_cons, List.not_mem_nil, or_false] at he
    rcases he with rfl | rfl | rfl | rfl <;> rfl)⟩⟩

theorem realTakes_inv (thr : Thr) {e : Entry} (he : e ∈ [Entry.inv, .inv0, .invu, .invn]) {u : ℕ → ℂ} (hu : Spec.Hermitian n u) :
    ∃ U, RealTakes thr n e u U :=
  ⟨_, .inr ⟨he, hu, fun w x y a => real_inv thr a e (by
    simp only [List.mem_cons, List.not_mem_nil, or_false] at he
    rcases he with rfl | rfl | rfl | rfl <;> rfl)⟩⟩

/-- C55: both directions of RealFFT have the Fourier identities exactly (tolerance 0), also those that mix forward and
inverse transforms. -/
theorem C55_real_both (thr : Thr) (hn : RealLen n) : NearIdentities n (RealTakes thr n) 0 :=
  near_of hn.pos (RealLen.le31 hn) fun e u U h k hk => by
    rw [realTakes_exact thr hn h k hk, sub_self, norm_zero, mul_zero]

/-- C92: RealFFT of length `n` and `m * n`, in exact arithmetic, both directions. -/
theorem C92_real_exact (thr : Thr) (hn : RealLen n) (hm : 0 < m) (hN : RealLen (m * n)) :
    Resample n m (RealTakes thr n) (RealTakes thr (m * n)) 0 0 := by
  refine resample_of hn.pos hm (RealLen.le31 hn) ?_ ?_
  · intro e u U h k hk; rw [realTakes_exact thr hn h k hk, sub_self, norm_zero, mul_zero]
  · intro e v V h k hk; rw [realTakes_exact thr hN h k hk, sub_self, norm_zero, mul_zero]

/-- six real numbers, and the same with a zero after each: the second half of the 12 bins repeats the first -/
example (thr : Thr) (r : ℕ → ℝ) : ∃ U V, RealTakes thr 6 .fwd0 (Spec.ofReal r) U ∧
    RealTakes thr 12 .fwd0 (Spec.ofReal fun j => if 2 ∣ j then r (j / 2) else 0) V ∧ ∀ k < 12, V k = U (k % 6) := by
  have h6 : RealLen 6 := realLen_of_le (m := 3) (by norm_num) (by norm_num)
  have h12 : RealLen (2 * 6) := realLen_of_le (m := 6) (by norm_num) (by norm_num)
  obtain ⟨U, hU⟩ := realTakes_fwd (n := 6) thr (e := .fwd0) (by simp) r
  obtain ⟨V, hV⟩ := realTakes_fwd (n := 12) thr (e := .fwd0) (by simp) fun j => if 2 ∣ j then r (j / 2) else 0
  refine ⟨U, V, hU, hV, fun k hk => ?_⟩
  have h := (C92_real_exact thr h6 (by norm_num) h12).stretch .fwd0 _ U _ V hU hV (fun j _ => by
    by_cases h : 2 ∣ j <;> simp [Spec.ofReal, h]) k hk
  simpa [Entry.factor, sub_eq_zero] using h

/-- the first four elements of any Hermitian vector of length 6: the inverse transform with conjugated bins is the signal
backwards -/
example (thr : Thr) (u : ℕ → ℂ) (hu : Spec.Hermitian 6 u) :
    ∃ U V, RealTakes thr 6 .inv u U ∧ RealTakes thr 6 .inv (fun j => (starRingEnd ℂ) (u j)) V ∧
      ∀ k < 6, V k = (starRingEnd ℂ) (U ((6 - k) % 6)) := by
  have h6 : RealLen 6 := realLen_of_le (m := 3) (by norm_num) (by norm_num)
  have hv : Spec.Hermitian 6 fun j => (starRingEnd ℂ) (u j) := fun k hk => congrArg (starRingEnd ℂ) (hu k hk)
  obtain ⟨U, hU⟩ := realTakes_inv (n := 6) thr (e := .inv) (by simp) hu
  obtain ⟨V, hV⟩ := realTakes_inv (n := 6) thr (e := .inv) (by simp) hv
  refine ⟨U, V, hU, hV, fun k hk => ?_⟩
  have h := (C55_real_both thr h6).conj .inv _ U _ V 0 hU hV (fun j _ => by simp) k hk
  simpa [sub_eq_zero] using h

end OTFFT.Props
