/-
C67, the limits: the mixed-radix inverse does not multiply by 1 where it should.
-/
import Verif.Props.Mean
import Mathlib.Analysis.Real.Pi.Bounds
import Mathlib.Analysis.SpecialFunctions.Trigonometric.Bounds

namespace OTFFT.Props

variable [Libm]

/-- the table entry that the inverse transform of length 10 uses in place of 1 -/
theorem ten_sin : (fsin (fmul (fofNat 10) (fdiv (fmul (fofNat 2) fpi) (fofNat 10))) : Rounded rnd64).val ≠ 0 := by
  have e0 : rnd64 Real.pi = (7074237752028440 : ℤ) / 2 ^ 51 := rnd64_at 51 _ (by norm_num) (by norm_num) (by norm_num) lits.2.2.2.2
  have e1 : rnd64 (((2:ℕ):ℝ) * rnd64 Real.pi) = (7074237752028440 : ℤ) / 2 ^ 50 := by
    rw [e0]
    exact rnd64_at 50 _ (by norm_num) (by norm_num) (by norm_num) (by push_cast; norm_num)
  have e2 : rnd64 (rnd64 (((2:ℕ):ℝ) * rnd64 Real.pi) / ((10:ℕ):ℝ)) = (5659390201622752 : ℤ) / 2 ^ 53 := by
    rw [e1]
    exact rnd64_at 53 _ (by norm_num) (by norm_num) (by norm_num) (by push_cast; norm_num)
  have e3 : rnd64 (((10:ℕ):ℝ) * rnd64 (rnd64 (((2:ℕ):ℝ) * rnd64 Real.pi) / ((10:ℕ):ℝ))) = (7074237752028440 : ℤ) / 2 ^ 50 := by
    rw [e2]
    exact rnd64_at 50 _ (by norm_num) (by norm_num) (by norm_num) (by push_cast; norm_num)
  show rnd64 (Libm.sin (rnd64 (((10:ℕ):ℝ) * rnd64 (rnd64 (((2:ℕ):ℝ) * rnd64 Real.pi) / ((10:ℕ):ℝ))))) ≠ 0
  rw [e3, IsDouble.rnd (Libm.sin_double _)]
  have a := Libm.sin_err (((7074237752028440 : ℤ) : ℝ) / 2 ^ 50) (by rw [abs_le]; constructor <;> norm_num)
  intro h
  rw [h, zero_sub, abs_neg] at a
  have p := Real.pi_gt_d20
  have p' := Real.pi_lt_d20
  have s : Real.sin (((7074237752028440 : ℤ) : ℝ) / 2 ^ 50) = -Real.sin (2 * Real.pi - ((7074237752028440 : ℤ) : ℝ) / 2 ^ 50) := by
    rw [Real.sin_two_pi_sub, neg_neg]
  rw [s, abs_neg] at a
  have b1 : (2.449e-16 : ℝ) < 2 * Real.pi - ((7074237752028440 : ℤ) : ℝ) / 2 ^ 50 := by
    norm_num at p ⊢
    linarith
  have b2 : 2 * Real.pi - ((7074237752028440 : ℤ) : ℝ) / 2 ^ 50 < (2.45e-16 : ℝ) := by
    norm_num at p' ⊢
    linarith
  generalize 2 * Real.pi - ((7074237752028440 : ℤ) : ℝ) / 2 ^ 50 = d at *
  have c := Real.sin_gt_sub_cube (x := d) (by norm_num at b1; linarith)
  have c3 : d ^ 3 ≤ (2.45e-16 : ℝ) ^ 3 := pow_le_pow_left₀ (by norm_num at b1; linarith) b2.le 3
  have := le_abs_self (Real.sin d)
  norm_num at a b1 c3 c
  linarith

/-- C67: the restriction to powers of two is necessary. The inverse transform of length 10 of `(1, 0, …, 0)` ought to be ten times 1, and
the forward transform of these data is exactly that (`C67_impulse`), but element 1 of the inverse transform has an imaginary part: with IEEE
doubles, any `cos` and `sin` of the required accuracy and any instruction set. -/
theorem C67_inverse_ten (i : Target) (thr : Thr) (e : Entry) (he : e = .inv ∨ e = .inv0) :
    letI := i.arith Dbl64
    ∃ out : ℕ → Xmm Dbl64, Computes (complexFFT (Xmm Dbl64) thr) 10 [(e, Ptr.base 1)]
      (oneArray 10 fun t => (![⟨.num (if t = 0 then 1 else 0) false⟩, ⟨.num 0 false⟩] : Xmm Dbl64)) (Ptr.base 1) 10 out ∧
      Dbl64.Finite (out 1 1) ∧ (out 1 1).val ≠ 0 := by
  letI := i.arith Dbl64
  letI := i.arith (Rounded rnd64)
  have hn : ValidLen 10 := validLen_of_le (by omega) (by omega)
  set v : ℕ → Xmm Dbl64 := fun t => (![⟨.num (if t = 0 then 1 else 0) false⟩, ⟨.num 0 false⟩] : Xmm Dbl64) with hv
  have fin1 : Dbl64.Finite (⟨.num 1 false⟩ : Dbl64) := by
    have := finite_int (k := 1) (by norm_num) false
    simpa using this
  obtain ⟨out, outr, h1, h2, h3⟩ := C82_complex (M := 1) (wr := oneArray 10 (vals64 v)) (xr := Ptr.base 1) i thr hn (oneArray_ok 10 v) (oneArray_ok 10 _)
    (by rw [mul_one]; exact big_le (by norm_num) (by norm_num)) (fun t ht => by
      refine ⟨⟨?_, finite_zero⟩, ?_⟩
      · by_cases h : t = 0
        · show Dbl64.Finite (⟨.num (if t = 0 then 1 else 0) false⟩ : Dbl64)
          rw [if_pos h]; exact fin1
        · show Dbl64.Finite (⟨.num (if t = 0 then 1 else 0) false⟩ : Dbl64)
          rw [if_neg h]; exact finite_zero
      · refine le_trans (norm_le_sum _) ?_
        show |(if t = 0 then 1 else 0 : ℝ)| + |(0:ℝ)| ≤ 1
        split <;> simp) e
  refine ⟨out, h1, (h3 1 (by norm_num) 1).1, ?_⟩
  rw [(h3 1 (by norm_num) 1).2, computes_unique (by simp [oneArray]) h2
    ⟨FFT.calls (es := [e]) hn (oneArray_ok 10 (vals64 v)), FFT.lifetime_noFail _ (by omega) _ (lenNat_calls _)⟩ 1 (by norm_num)]
  have hm : e.mode = .scale_1 ∧ e.isInv = true := by rcases he with rfl | rfl <;> exact ⟨rfl, rfl⟩
  show (fftOut (Xmm (Rounded rnd64)) thr e.isInv e.mode 10 (vals64 v) 1 1).val ≠ 0
  rw [hm.1, hm.2]
  have L := flatLaws (rounded_zeroOne rnd64_keeps) i
  have v0 : vals64 v 0 = cOne (Rounded rnd64) := ext2 (rounded_ext (by show (1:ℝ) = ((1:ℕ):ℝ); norm_num)) (rounded_ext (by show (0:ℝ) = ((0:ℕ):ℝ); norm_num))
  have vt : ∀ t, t ≠ 0 → vals64 v t = cZero (Rounded rnd64) := fun t ht =>
    ext2 (rounded_ext (by show (if t = 0 then (1:ℝ) else 0) = ((0:ℕ):ℝ); simp [ht])) (rounded_ext (by show (0:ℝ) = ((0:ℕ):ℝ); norm_num))
  generalize vals64 v = u at v0 vt
  have hd : dispatch (logOf 10) = some .mixed := by
    cases hl : logOf 10 with
    | none => rfl
    | some k =>
      have h : 10 = 2 ^ k := logOf_some hl
      have h3 : 5 ∣ 2 ^ k := h ▸ (by norm_num : 5 ∣ 10)
      have := Nat.prime_five.dvd_of_dvd_pow h3
      omega
  have key : fftOut (Xmm (Rounded rnd64)) thr true .scale_1 10 u 1 = mixTabVal (Xmm (Rounded rnd64)) 10 10 := by
    unfold fftOut
    rw [hd]
    show mixRec true 10 (mixTabVal (Xmm (Rounded rnd64)) 10) 10 1 u 1 = _
    generalize hW : mixTabVal (Xmm (Rounded rnd64)) 10 = W
    have rW : rnd64 (W 10 0).val = (W 10 0).val ∧ rnd64 (W 10 1).val = (W 10 1).val := by
      rw [← hW]
      refine ⟨rnd64_keeps.idem _, ?_⟩
      show rnd64 (-rnd64 _) = -rnd64 _
      rw [rnd64_neg, rnd64_keeps.idem]
    rw [mixRec, dif_neg (by norm_num), if_neg (by norm_num), if_neg (by norm_num), if_pos (by norm_num), if_neg (by norm_num)]
    rw [mixRec, dif_neg (by norm_num), if_neg (by norm_num), if_neg (by norm_num), if_neg (by norm_num), if_pos (by norm_num), if_pos (by norm_num)]
    show addpz (addpz (addpz (addpz (mulpz (W 10) (subpz (u 0) (u 5))) (mulpz (W 9) (subpz (u 1) (u 6)))) (mulpz (W 8) (subpz (u 2) (u 7))))
      (mulpz (W 7) (subpz (u 3) (u 8)))) (mulpz (W 6) (subpz (u 4) (u 9))) = W 10
    rw [v0, vt 1 (by norm_num), vt 2 (by norm_num), vt 3 (by norm_num), vt 4 (by norm_num), vt 5 (by norm_num), vt 6 (by norm_num), vt 7 (by norm_num),
      vt 8 (by norm_num), vt 9 (by norm_num), L.subO L.repI, L.subSelf, L.mulO, L.mulO, L.mulO, L.mulO,
      L.mulI rW, L.addO rW, L.addO rW, L.addO rW, L.addO rW]
  rw [key]
  show -(fsin (fmul (fofNat 10) (fdiv (fmul (fofNat 2) fpi) (fofNat 10))) : Rounded rnd64).val ≠ 0
  exact neg_ne_zero.2 ten_sin

end OTFFT.Props
