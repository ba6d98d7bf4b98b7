/-
C61: the output of a forward real transform is conjugate symmetric exactly, not only up to rounding.
-/
import Verif.Props.AccuracyReal
import Verif.Props.Simd
import Verif.Spec.Binary64
import Verif.Proof.Binary64

namespace OTFFT.Props
open OTFFT

variable {F : Type} [FArith F] [Inhabited F] {w : World (Xmm F)} {n : ℕ} {x y : Ptr}

theorem cnjpz_arith (i : Target) (a : Xmm F) : (letI := i.arith F; cnjpz a) = ![a 0, fneg (a 1)] := by
  obtain ⟨s2, s3, f, av, a5⟩ := i
  cases s2 <;> cases s3 <;> cases f <;> (funext j; fin_cases j <;> rfl)

theorem rfft_mirror (i : Target) (thr : Thr) (hn : RealLen n) {e : Entry} (hi : e.isInv = false) (v : ℕ → Xmm F) :
    letI := i.arith F
    let out := rfftOut (Xmm F) thr e n v
    (∀ k, 0 < k → 2 * k < n → out (n - k) 0 = out k 0 ∧ out (n - k) 1 = fneg (out k 1)) ∧
      out 0 1 = fofNat 0 ∧ (2 ≤ n → out (n / 2) 1 = fofNat 0) := by
  letI := i.arith F
  refine ⟨?_, ?_, ?_⟩
  · intro k hk hkn
    rcases hn with rfl | ⟨m, rfl, hm, -⟩
    · omega
    have h2 := hm.two
    rw [rfftOut, if_neg (by omega), hi]
    simp only [Bool.false_eq_true, if_false, rfftFwdOut, show 2 * m / 2 = m by omega, rfftPostOut]
    rw [if_neg (by omega), if_neg (by omega), if_neg (by omega), if_neg (by omega), if_pos (by omega),
      show 2 * m - (2 * m - k) = k by omega, cnjpz_arith i]
    exact ⟨rfl, rfl⟩
  · rw [rfftOut]
    split
    · rfl
    · rw [hi]; rfl
  · intro h2
    rcases hn with rfl | ⟨m, rfl, hm, -⟩
    · omega
    have h2 := hm.two
    rw [rfftOut, if_neg (by omega), hi]
    simp only [Bool.false_eq_true, if_false, rfftFwdOut, show 2 * m / 2 = m by omega, rfftPostOut]
    rw [if_neg (by omega), if_neg (by omega), if_pos trivial]
    rfl

/-- C61: in any arithmetic (IEEE 754 with any rounding, overflow, infinities and NaNs included), for every compilation, a forward
real transform writes to `y[n-k]` exactly the conjugate of `y[k]`: the same real part and the imaginary part negated, bit for bit. The
two real entries `y[0]` and `y[n/2]` have the imaginary part `+0`, whatever the input. -/
theorem C61_mirror (i : Target) (thr : Thr) (hn : RealLen n) (wf : w.WF) {d : ℕ → F} (hx : Arr w.heap x n (doubles d))
    (hy : Alloc w.heap y n) (hxy : Sep x n y n) (e : Entry) (he : e ∈ [Entry.fwd, .fwd0, .fwdu, .fwdn]) :
    letI := i.arith F
    ∃ out : ℕ → Xmm F, Computes (realFFT (Xmm F) thr) n [(e, x, y)] w y n out ∧
      (∀ k, 0 < k → 2 * k < n → out (n - k) 0 = out k 0 ∧ out (n - k) 1 = fneg (out k 1)) ∧
      out 0 1 = fofNat 0 ∧ (2 ≤ n → out (n / 2) 1 = fofNat 0) := by
  letI := i.arith F
  have hi : e.isInv = false := by
    simp only [List.mem_cons, List.not_mem_nil, or_false] at he
    rcases he with rfl | rfl | rfl | rfl <;> rfl
  have a : RealArgs w e n x y (doubles d) := ⟨wf, hn, by rw [rfftNeed, hi]; exact hx, hx.alloc, hy, hxy⟩
  refine ⟨rfftOut (Xmm F) thr e n (doubles d), ComputesIn.toComputes (RFFT.computes a) ?_ fun t _ => rfl, rfft_mirror i thr hn hi _⟩
  rw [rfftDirty, hi]; exact le_refl _

/-! ### Examples -/

variable [Libm]

/-- length 12, IEEE doubles, inputs with infinities and NaN allowed -/
example (thr : Thr) (d : ℕ → Dbl64) : letI := avxBuild.arith Dbl64
    ∃ out : ℕ → Xmm Dbl64, Computes (realFFT (Xmm Dbl64) thr) 12 [(.fwd, Ptr.base 1, Ptr.base 2)] (twoArrays 12 (doubles d))
        (Ptr.base 2) 12 out ∧
      out 11 0 = out 1 0 ∧ out 7 1 = fneg (out 5 1) ∧ out 6 1 = fofNat 0 := by
  obtain ⟨out, h, m, -, n⟩ := C61_mirror avxBuild thr (realLen_of_le (m := 6) (by omega) (by omega))
    (twoArrays_ok 12 (doubles d)).wf (twoArrays_ok 12 (doubles d)).arr (y := Ptr.base 2)
    (fun i hi => by simp [twoArrays, Ptr.base, Ptr.loc, hi])
    (Sep.of_buf (by simp [Ptr.base]) _ _) .fwd (by simp)
  exact ⟨out, h, (m 1 (by omega) (by omega)).1, (m 5 (by omega) (by omega)).2, n (by omega)⟩

end OTFFT.Props
