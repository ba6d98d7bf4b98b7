/-
C88: the mean value, element 0 of a normalised transform, is exact for fixed point numbers and power of two lengths.
-/
import Verif.Props.DC
import Mathlib.Tactic.NormNum.Prime

namespace OTFFT.Props

variable [Libm]

section
variable {q : ℤ} {l : ℕ}

/-- `z` is the sum of the fixed point numbers `k t 2^q`, `t` in `A`, if that sum is small enough; in any case it is a pair of doubles -/
def FixedSum (k : ℕ → Fin 2 → ℤ) (q : ℤ) (A : Multiset ℕ) (z : Xmm (Rounded rnd64)) : Prop :=
  (∀ j, (A.map fun t => |k t j|).sum ≤ 2 ^ 53 → (z j).val = ((A.map fun t => k t j).sum : ℤ) * 2 ^ q) ∧
    rnd64 (z 0).val = (z 0).val ∧ rnd64 (z 1).val = (z 1).val

theorem fixed_laws (i : Target) (k : ℕ → Fin 2 → ℤ) (hq : -1074 ≤ q) :
    letI := i.arith (Rounded rnd64)
    SumLaws (F := Rounded rnd64) (C := Xmm (Rounded rnd64)) (fun _ A z => FixedSum k q A z)
      (fun z => rnd64 (z 0).val = (z 0).val ∧ rnd64 (z 1).val = (z 1).val) := by
  letI := i.arith (Rounded rnd64)
  refine ⟨fun h => h.2, fun _ h => h, ?_⟩
  intro c A B a b ha hb
  have e : (addpz a b : Xmm (Rounded rnd64)) = pairAdd a b := addpz_arith i a b
  beta_reduce
  rw [e]
  refine ⟨fun j hs => ?_, rnd64_keeps.idem _, rnd64_keeps.idem _⟩
  rw [Multiset.map_add, Multiset.sum_add] at hs
  have pa : 0 ≤ (A.map fun t => |k t j|).sum := Multiset.sum_nonneg (by simp)
  have pb : 0 ≤ (B.map fun t => |k t j|).sum := Multiset.sum_nonneg (by simp)
  have e : (pairAdd a b j).val = rnd64 ((a j).val + (b j).val) := by
    match j with
    | 0 => rfl
    | 1 => rfl
  rw [e, ha.1 j (by omega), hb.1 j (by omega), ← add_mul, ← Int.cast_add, Multiset.map_add, Multiset.sum_add]
  refine rnd64_repr ?_ hq
  have h1 := abs_msum (fun t => k t j) A
  have h2 := abs_msum (fun t => k t j) B
  exact le_trans (abs_add_le _ _) (by omega)

theorem inv_pow_val (hl : l ≤ 30) : (fdiv (fofNat 1) (fofNat (2 ^ l)) : Rounded rnd64).val = 2 ^ (-(l:ℤ)) := by
  show rnd64 (((1:ℕ):ℝ) / ((2 ^ l : ℕ) : ℝ)) = _
  have : (((1:ℕ):ℝ) / ((2 ^ l : ℕ) : ℝ)) = ((1:ℤ):ℝ) * 2 ^ (-(l:ℤ)) := by
    rw [zpow_neg, zpow_natCast]
    push_cast
    ring
  rw [this, rnd64_repr (by norm_num) (by omega)]
  push_cast
  ring

theorem fixed_mul {k : ℕ → Fin 2 → ℤ} (hq : -1074 ≤ q - l) {r : Rounded rnd64} (hr : r.val = 2 ^ (-(l:ℤ))) {A : Multiset ℕ} {z : Xmm (Rounded rnd64)}
    (h : FixedSum k q A z) : FixedSum k (q - l) A ![fmul r (z 0), fmul r (z 1)] := by
  refine ⟨fun j hs => ?_, rnd64_keeps.idem _, rnd64_keeps.idem _⟩
  have e : ((![fmul r (z 0), fmul r (z 1)] : Xmm (Rounded rnd64)) j).val = rnd64 (r.val * (z j).val) := by
    match j with
    | 0 => rfl
    | 1 => rfl
  have s : r.val * (z j).val = ((A.map fun t => k t j).sum : ℤ) * 2 ^ (q - l) := by
    rw [h.1 j hs, hr, sub_eq_add_neg, zpow_add₀ (by norm_num)]
    ring
  rw [e, s]
  exact rnd64_repr (le_trans (abs_msum (fun t => k t j) A) hs) hq

/-- a factor without imaginary part -/
theorem mulpz_real (i : Target) (r : Rounded rnd64) (z : Xmm (Rounded rnd64)) :
    (letI := i.arith (Rounded rnd64); mulpz (![r, fofNat 0] : Xmm (Rounded rnd64)) z) = ![fmul r (z 0), fmul r (z 1)] := by
  have z0 : (fofNat 0 : Rounded rnd64).val = 0 := Nat.cast_zero
  have zz : ∀ y, rnd64 ((fofNat 0 : Rounded rnd64).val * y) = 0 := fun y => by rw [z0, zero_mul, rnd64_zero]
  have e1 : rnd64 (rnd64 (r.val * (z 0).val) - rnd64 ((fofNat 0 : Rounded rnd64).val * (z 1).val)) = rnd64 (r.val * (z 0).val) := by
    rw [zz, sub_zero, rnd64_keeps.idem]
  have e2 : rnd64 (rnd64 (r.val * (z 1).val) + rnd64 ((fofNat 0 : Rounded rnd64).val * (z 0).val)) = rnd64 (r.val * (z 1).val) := by
    rw [zz, add_zero, rnd64_keeps.idem]
  have e3 : rnd64 (rnd64 (r.val * (z 0).val) + rnd64 ((fofNat 0 : Rounded rnd64).val * -(z 1).val)) = rnd64 (r.val * (z 0).val) := by
    rw [zz, add_zero, rnd64_keeps.idem]
  have e4 : rnd64 (r.val * (z 0).val - rnd64 ((fofNat 0 : Rounded rnd64).val * (z 1).val)) = rnd64 (r.val * (z 0).val) := by
    rw [zz, sub_zero]
  have e5 : rnd64 (r.val * (z 1).val + rnd64 ((fofNat 0 : Rounded rnd64).val * (z 0).val)) = rnd64 (r.val * (z 1).val) := by
    rw [zz, add_zero]
  obtain ⟨s2, s3, f, av, a5⟩ := i
  cases s2
  · exact ext2 (rounded_ext e1) (rounded_ext e2)
  · cases s3
    · exact ext2 (rounded_ext e3) (rounded_ext e2)
    · cases f
      · exact ext2 (rounded_ext e1) (rounded_ext e2)
      · exact ext2 (rounded_ext e4) (rounded_ext e5)

theorem fixed_scl (i : Target) {k : ℕ → Fin 2 → ℤ} (hl : l ≤ 30) (hq : -1074 ≤ q - l) :
    letI := i.arith (Rounded rnd64)
    Scl (F := Rounded rnd64) (C := Xmm (Rounded rnd64)) (fun _ A z => FixedSum k q A z) (fun _ A z => FixedSum k (q - l) A z)
      (cOne (Rounded rnd64)) .scale_length (2 ^ l) := by
  letI := i.arith (Rounded rnd64)
  have hr := inv_pow_val hl
  have S : ∀ z : Xmm (Rounded rnd64), scl (fdiv (fofNat 1) (fofNat (2 ^ l))) z =
      ![fmul (fdiv (fofNat 1) (fofNat (2 ^ l))) (z 0), fmul (fdiv (fofNat 1) (fofNat (2 ^ l))) (z 1)] := fun z => scl_arith i _ z
  refine ⟨fun {c A z} h => ?_, fun {c A z} h => ?_, fun {c A z} h => ?_⟩
  · show FixedSum k (q - l) A (scl (fdiv (fofNat 1) (fofNat (2 ^ l))) z)
    rw [S]
    exact fixed_mul hq hr h
  · show FixedSum k (q - l) A (mulpz (scl (fdiv (fofNat 1) (fofNat (2 ^ l))) (cOne (Rounded rnd64))) z)
    have e : scl (fdiv (fofNat 1) (fofNat (2 ^ l))) (cOne (Rounded rnd64)) = ![fdiv (fofNat 1) (fofNat (2 ^ l)), fofNat 0] := by
      rw [S]
      refine ext2 ((rounded_zeroOne rnd64_keeps).mulO (rnd64_keeps.idem _)) ((rounded_zeroOne rnd64_keeps).mulZ _)
    rw [e, mulpz_real i]
    exact fixed_mul hq hr h
  · show FixedSum k (q - l) A (scl (fdiv (fofNat 1) (fofNat (2 ^ l))) z)
    rw [S]
    exact fixed_mul hq hr h

end

/-! ### C88 -/

section
variable {l : ℕ} {q : ℤ}

/-- C88: fixed point numbers, integers times `2^q`, and a length `n = 2^l`, `l ≤ q + 1074`: if the sum of the absolute values of the
integers is at most `2^53`, in the real parts and in the imaginary parts, element 0 of the normalised transform is the exact mean value. -/
theorem C88_exact (i : Target) (thr : Thr) (h1 : 1 ≤ l) (hl : l ≤ 30) {w : World (Xmm (Rounded rnd64))} {x : Ptr}
    {v : ℕ → Xmm (Rounded rnd64)} (hx : UserArray w x (2 ^ l) v) (hq : -1074 ≤ q - l) {k : ℕ → Fin 2 → ℤ}
    (hk : ∀ t < 2 ^ l, ∀ j, (v t j).val = k t j * 2 ^ q)
    (hs : ∀ j, ∑ t ∈ Finset.range (2 ^ l), |k t j| ≤ 2 ^ 53) (e : Entry) (he : e ∈ [Entry.fwd, .fwdn, .invn]) :
    letI := i.arith (Rounded rnd64)
    ∃ out : ℕ → Xmm (Rounded rnd64), Computes (complexFFT (Xmm (Rounded rnd64)) thr) (2 ^ l) [(e, x)] w x (2 ^ l) out ∧
      ∀ j, (out 0 j).val = (∑ t ∈ Finset.range (2 ^ l), (v t j).val) / 2 ^ l := by
  letI := i.arith (Rounded rnd64)
  have hn : ValidLen (2 ^ l) := validLen_pow l h1 (by omega)
  refine ⟨_, ⟨FFT.calls (es := [e]) hn hx, FFT.lifetime_noFail _ (by have := hn.two; omega) _ (lenNat_calls _)⟩, fun j => ?_⟩
  have hm : e.mode = .scale_length := by
    simp only [List.mem_cons, List.not_mem_nil, or_false] at he
    rcases he with rfl | rfl | rfl <;> rfl
  show (fftOut (Xmm (Rounded rnd64)) thr e.isInv e.mode (2 ^ l) v 0 j).val = _
  rw [hm]
  have rep : ∀ t < 2 ^ l, ∀ j, rnd64 (v t j).val = (v t j).val := fun t ht j => by
    rw [hk t ht j]
    exact rnd64_repr (abs_le_total (k := fun t => k t j) (hs j) ht) (by omega)
  have key := (fixed_laws i k (by omega : -1074 ≤ q)).fft_sum_scaled (fixed_laws i k hq) (flatLaws (rounded_zeroOne rnd64_keeps) i)
    (fixed_scl i hl hq) (S := fun t => {t}) (thr := thr) (c := 0) (inv := e.isInv) hn.two
    (fun _ p pp hd => by
      have := (Nat.prime_dvd_prime_iff_eq pp Nat.prime_two).1 (pp.dvd_of_dvd_pow hd)
      omega)
    (v := v) (fun t ht => ⟨fun j _ => by simpa using hk t ht j, rep t ht 0, rep t ht 1⟩)
  rw [range_sum] at key
  rw [key.1 j (by exact hs j), msum_range, sub_eq_add_neg, zpow_add₀ (by norm_num), ← mul_assoc, total_eq (fun t ht => hk t ht j), zpow_neg, zpow_natCast]
  ring

/-- C88: the same with IEEE doubles, `q ≤ 900`. -/
theorem C88_ieee (i : Target) (thr : Thr) (h1 : 1 ≤ l) (hl : l ≤ 30) {w : World (Xmm Dbl64)} {x : Ptr}
    {v : ℕ → Xmm Dbl64} (hx : UserArray w x (2 ^ l) v) (hq : -1074 ≤ q - l) (hq' : q ≤ 900) {k : ℕ → Fin 2 → ℤ}
    (hk : ∀ t < 2 ^ l, ∀ j, Dbl64.Finite (v t j) ∧ (v t j).val = k t j * 2 ^ q)
    (hs : ∀ j, ∑ t ∈ Finset.range (2 ^ l), |k t j| ≤ 2 ^ 53) (e : Entry) (he : e ∈ [Entry.fwd, .fwdn, .invn]) :
    letI := i.arith Dbl64
    ∃ out : ℕ → Xmm Dbl64, Computes (complexFFT (Xmm Dbl64) thr) (2 ^ l) [(e, x)] w x (2 ^ l) out ∧
      ∀ j, Dbl64.Finite (out 0 j) ∧ (out 0 j).val = (∑ t ∈ Finset.range (2 ^ l), (v t j).val) / 2 ^ l := by
  letI := i.arith Dbl64
  letI := i.arith (Rounded rnd64)
  have hn : ValidLen (2 ^ l) := validLen_pow l h1 (by omega)
  have h0 : 0 < 2 ^ l := by positivity
  obtain ⟨out, outr, h1', h2, h3⟩ := C82_complex (M := 2 ^ 954) (wr := oneArray (2 ^ l) (vals64 v)) (xr := Ptr.base 1) i thr hn hx (oneArray_ok (2 ^ l) _)
    (by
      have : ((2 ^ l : ℕ):ℝ) ≤ 2 ^ 31 := by exact_mod_cast hn.int.le
      calc ((2 ^ l : ℕ):ℝ) * 2 ^ 954 ≤ 2 ^ 31 * 2 ^ 954 := mul_le_mul_of_nonneg_right this (by positivity)
        _ = 2 ^ 985 := by rw [← pow_add]
        _ ≤ 2 ^ 1019 := pow_le_pow_right₀ (by norm_num) (by norm_num))
    (fun t ht => ⟨⟨(hk t ht 0).1, (hk t ht 1).1⟩, le_trans (norm_le_sum _) (by
      have b := fun j => fixed_small (abs_le_total (k := fun t => k t j) (hs j) ht) hq'
      have b0 := b 0
      have b1 := b 1
      rw [← (hk t ht 0).2] at b0
      rw [← (hk t ht 1).2] at b1
      rw [show (2:ℝ) ^ 954 = 2 ^ 953 + 2 ^ 953 by rw [pow_succ]; ring]
      exact add_le_add b0 b1)⟩) e
  obtain ⟨o, h4, h5⟩ := C88_exact i thr h1 hl (oneArray_ok (2 ^ l) (vals64 v)) hq (k := k) (fun t ht j => (hk t ht j).2) hs e he
  refine ⟨out, h1', fun j => ⟨(h3 0 h0 j).1, ?_⟩⟩
  rw [(h3 0 h0 j).2, computes_unique (by simp [oneArray]) h2 h4 0 h0]
  exact h5 j

end

/-! ### real and cosine transforms: they divide by the length -/

section
variable {n : ℕ} {q : ℤ}

omit [Libm] in
/-- the normalised real transform divides elements 0 and `n/2` by `n`, in any arithmetic -/
theorem rfft_ends {F : Type} [FArith F] (i : Target) (thr : Thr) {m : ℕ} (hm : 2 ≤ m) (v : ℕ → Xmm F) {e : Entry} (he : e = .fwd ∨ e = .fwdn) {t : ℕ}
    (ht : t = 0 ∨ t = m) :
    letI := i.arith F
    rfftOut (Xmm F) thr e (2 * m) v t = ![fdiv (rfftOut (Xmm F) thr .fwd0 (2 * m) v t 0) (fofNat (2 * m)), fofNat 0] := by
  letI := i.arith F
  have hd : 2 * m / 2 = m := by omega
  have key : ∀ f : Entry, f.isInv = false → rfftOut (Xmm F) thr f (2 * m) v t = rfftPostOut (Xmm F) f.mode m (rfftTab (Xmm F) (2 * m))
      (fftOut (Xmm F) thr false .scale_1 m (rfftZin (Xmm F) v)) t := fun f hf => by
    rw [rfftOut, if_neg (by omega), hf]
    show rfftPostOut (Xmm F) f.mode (2 * m / 2) (rfftTab (Xmm F) (2 * (2 * m / 2)))
      (fftOut (Xmm F) thr false .scale_1 (2 * m / 2) (rfftZin (Xmm F) v)) t = _
    rw [hd]
  have h1 : e.isInv = false ∧ e.mode = .scale_length := by rcases he with rfl | rfl <;> exact ⟨rfl, rfl⟩
  rw [key e h1.1, key .fwd0 rfl, h1.2]
  generalize fftOut (Xmm F) thr false .scale_1 m (rfftZin (Xmm F) v) = W
  generalize rfftTab (Xmm F) (2 * m) = U
  unfold rfftPostOut
  rcases ht with rfl | rfl
  · rw [if_pos rfl, if_pos rfl]
    exact ext2 rfl rfl
  · rw [if_neg (by omega), if_neg (by omega), if_pos rfl, if_neg (by omega), if_neg (by omega), if_pos rfl]
    exact ext2 rfl rfl

/-- C88: real data, integers times `2^q` with the sum of the absolute values of the integers at most `2^53`, any supported length: element 0
of the normalised spectrum is the double nearest to the mean value, element `n/2` the one nearest to the alternating mean. -/
theorem C88_real (i : Target) (thr : Thr) (hn : RealLen n) {w : World (Xmm (Rounded rnd64))} {x y : Ptr} {d : ℕ → Rounded rnd64}
    (hw : w.WF) (hx : Arr w.heap x n (doubles d)) (hy : Alloc w.heap y n) (hxy : Sep x n y n) (hq : -1074 ≤ q) {k : ℕ → ℤ}
    (hk : ∀ t < n, (d t).val = k t * 2 ^ q) (hs : ∑ t ∈ Finset.range n, |k t| ≤ 2 ^ 53) (e : Entry) (he : e = .fwd ∨ e = .fwdn) :
    letI := i.arith (Rounded rnd64)
    ∃ out : ℕ → Xmm (Rounded rnd64), Computes (realFFT (Xmm (Rounded rnd64)) thr) n [(e, x, y)] w y n out ∧
      (out 0 0).val = rnd64 ((∑ t ∈ Finset.range n, (d t).val) / n) ∧ (out 0 1).val = 0 ∧
      ∀ m, n = 2 * m → (out m 0).val = rnd64 ((∑ t ∈ Finset.range n, (-1) ^ t * (d t).val) / n) ∧ (out m 1).val = 0 := by
  letI := i.arith (Rounded rnd64)
  have hi : e.isInv = false := by rcases he with rfl | rfl <;> rfl
  have a : RealArgs w e n x y (doubles d) := ⟨hw, hn, by rw [rfftNeed, hi]; exact hx, hx.alloc, hy, hxy⟩
  refine ⟨_, ComputesIn.toComputes (RFFT.computes (thr := thr) a) (by rw [rfftDirty, hi]; exact le_refl _) (fun _ _ => rfl), ?_⟩
  rcases hn with rfl | ⟨m, rfl, hm, -⟩
  · rw [rfftOut, if_pos rfl]
    refine ⟨?_, Nat.cast_zero, fun m h => by omega⟩
    rw [Finset.sum_range_one, Nat.cast_one, div_one, hk 0 (by omega), rnd64_repr (abs_le_total hs (by omega)) hq, ← hk 0 (by omega)]
    rfl
  obtain ⟨e0, e1⟩ := rfft_sums i thr hm.two hq hk hs
  refine ⟨?_, ?_, ?_⟩
  · rw [rfft_ends i thr hm.two _ he (.inl rfl), e0]
    show rnd64 (((∑ t ∈ Finset.range (2 * m), k t : ℤ) * 2 ^ q) / ((2 * m : ℕ) : ℝ)) = _
    rw [total_eq hk]
  · rw [rfft_ends i thr hm.two _ he (.inl rfl)]
    exact Nat.cast_zero
  · intro m' h
    obtain rfl : m' = m := by omega
    rw [rfft_ends i thr hm.two _ he (.inr rfl), e1]
    refine ⟨?_, Nat.cast_zero⟩
    show rnd64 (((∑ t ∈ Finset.range (2 * m'), (-1) ^ t * k t : ℤ) * 2 ^ q) / ((2 * m' : ℕ) : ℝ)) = _
    rw [total_eq (f := fun t => (-1) ^ t * (d t).val) fun t ht => ?_]
    rw [hk t ht]
    push_cast
    ring

/-- C88: … with IEEE doubles, `q ≤ 900`. -/
theorem C88_real_ieee (i : Target) (thr : Thr) (hn : RealLen n) {w : World (Xmm Dbl64)} {x y : Ptr} {d : ℕ → Dbl64}
    (hw : w.WF) (hx : Arr w.heap x n (doubles d)) (hy : Alloc w.heap y n) (hxy : Sep x n y n) (hq : -1074 ≤ q) (hq' : q ≤ 900) {k : ℕ → ℤ}
    (hk : ∀ t < n, Dbl64.Finite (d t) ∧ (d t).val = k t * 2 ^ q) (hs : ∑ t ∈ Finset.range n, |k t| ≤ 2 ^ 53) (e : Entry) (he : e = .fwd ∨ e = .fwdn) :
    letI := i.arith Dbl64
    ∃ out : ℕ → Xmm Dbl64, Computes (realFFT (Xmm Dbl64) thr) n [(e, x, y)] w y n out ∧
      (out 0 0).val = rnd64 ((∑ t ∈ Finset.range n, (d t).val) / n) ∧ (out 0 1).val = 0 ∧
      ∀ m, n = 2 * m → (out m 0).val = rnd64 ((∑ t ∈ Finset.range n, (-1) ^ t * (d t).val) / n) ∧ (out m 1).val = 0 := by
  letI := i.arith Dbl64
  letI := i.arith (Rounded rnd64)
  have h0 := hn.pos
  have ok := twoArrays_ok (C := Xmm (Rounded rnd64)) n (doubles fun t => ⟨(d t).val⟩)
  obtain ⟨out, outr, h1, h2, h3⟩ := C82_real_forward (M := 2 ^ 953) i thr hn hw hx hy hxy ok.wf ok.arr (twoArrays_alloc _ _) (twoArrays_sep _)
    (by
      have : (n:ℝ) ≤ 2 ^ 31 := by exact_mod_cast RealLen.le31 hn
      calc (n:ℝ) * 2 ^ 953 ≤ 2 ^ 31 * 2 ^ 953 := mul_le_mul_of_nonneg_right this (by positivity)
        _ = 2 ^ 984 := by rw [← pow_add]
        _ ≤ 2 ^ 1016 := pow_le_pow_right₀ (by norm_num) (by norm_num))
    (fun t ht => ⟨(hk t ht).1, by rw [(hk t ht).2]; exact fixed_small (abs_le_total hs ht) hq'⟩) e (by rcases he with rfl | rfl <;> simp)
  obtain ⟨o, h4, h5, h6, h7⟩ := C88_real i thr hn ok.wf ok.arr (twoArrays_alloc _ _) (twoArrays_sep _) hq (k := k) (fun t ht => (hk t ht).2) hs e he
  have eq := fun t (ht : t < n) j => (h3 t ht j).2.trans (by rw [computes_unique (by simp [twoArrays]) h2 h4 t ht] : _ = (o t j).val)
  refine ⟨out, h1, (eq 0 h0 0).trans h5, (eq 0 h0 1).trans h6, fun m hm => ?_⟩
  exact ⟨(eq m (by omega) 0).trans (h7 m hm).1, (eq m (by omega) 1).trans (h7 m hm).2⟩

/-- C88: the normalised cosine transform of such data: element 0 is the double nearest to the mean value. -/
theorem C88_dct (i : Target) (thr : Thr) (hn : RealLen n) (h30 : n < 2 ^ 30) {w : World (Xmm (Rounded rnd64))} {x : Ptr} {d : ℕ → Rounded rnd64}
    (hx : UserArray w x n (doubles d)) (hq : -1074 ≤ q) {k : ℕ → ℤ} (hk : ∀ t < n, (d t).val = k t * 2 ^ q)
    (hs : ∑ t ∈ Finset.range n, |k t| ≤ 2 ^ 53) (e : DctEntry) (he : e = .fwd ∨ e = .fwdn) :
    letI := i.arith (Rounded rnd64)
    ∃ out : ℕ → Rounded rnd64, Computes (realDCT (Xmm (Rounded rnd64)) thr) n [(e, x)] w x n (doubles out) ∧
      (out 0).val = rnd64 ((∑ t ∈ Finset.range n, (d t).val) / n) := by
  letI := i.arith (Rounded rnd64)
  have Z := rounded_zeroOne rnd64_keeps
  have c := fun t => (dct_cell (F := Rounded rnd64) i thr e n (v := doubles d) (t := t) ⟨_, rfl⟩).1
  refine ⟨fun t => dctOut (Xmm (Rounded rnd64)) thr e n (doubles d) t 0,
    ComputesIn.toComputes (DCT.computes (thr := thr) hx.wf hn h30 hx.arr [e]) (Set.empty_subset _) (fun t _ => (c t).symm), ?_⟩
  beta_reduce
  rcases hn with rfl | ⟨m, rfl, hm, -⟩
  · rw [dctOut, if_pos rfl, Finset.sum_range_one, Nat.cast_one, div_one, hk 0 (by omega), rnd64_repr (abs_le_total hs (by omega)) hq, ← hk 0 (by omega)]
    rfl
  have h2 := hm.two
  have hg : dctGath (2 * m / 2) (doubles d) = doubles (dctGath' m d) := by
    funext q
    rw [show 2 * m / 2 = m by omega]
    show (if q < m then ![d (2 * q), fofNat 0] else ![d (2 * (2 * m - 1 - q) + 1), fofNat 0]) =
      (![if q < m then d (2 * q) else d (2 * (2 * m - 1 - q) + 1), fofNat 0] : Xmm (Rounded rnd64))
    split <;> rfl
  have h1 : e.isInv = false ∧ e.real = .fwd := by rcases he with rfl | rfl <;> exact ⟨rfl, rfl⟩
  rw [dctOut, if_neg (by omega), h1.1, h1.2]
  show (dctTw (Xmm (Rounded rnd64)) (dctTab (Xmm (Rounded rnd64)) (2 * m))
    (rfftOut (Xmm (Rounded rnd64)) thr .fwd (2 * m) (dctGath (2 * m / 2) (doubles d))) 0 0).val = _
  rw [hg, dctTw_eq i, rfft_ends i thr h2 _ (.inl rfl) (.inl rfl), (rfft_sums i thr h2 hq (k := fun p => k (if p < m then 2 * p else 2 * (2 * m - 1 - p) + 1)) (fun t ht => by
    unfold dctGath'
    beta_reduce
    split
    · exact hk _ (by omega)
    · exact hk _ (by omega)) (by rw [gath_sum fun t => |k t|]; exact hs)).1, gath_sum, dctTab_zero rnd64_keeps i (by omega)]
  show (fadd (fmul (fofNat 1) (fdiv (⟨_⟩ : Rounded rnd64) (fofNat (2 * m)))) (fmul (fofNat 0) (fofNat 0))).val = _
  rw [← total_eq hk]
  generalize ((∑ t ∈ Finset.range (2 * m), k t : ℤ) : ℝ) * 2 ^ q = s
  have hr : rnd64 (fdiv (⟨s⟩ : Rounded rnd64) (fofNat (2 * m))).val = (fdiv (⟨s⟩ : Rounded rnd64) (fofNat (2 * m))).val := rnd64_keeps.idem _
  rw [Z.mulZ, Z.oMul hr, Z.addZ hr]
  rfl

/-- C88: … with IEEE doubles, `q ≤ 900`. -/
theorem C88_dct_ieee (i : Target) (thr : Thr) (hn : RealLen n) (h30 : n < 2 ^ 30) {w : World (Xmm Dbl64)} {x : Ptr} {d : ℕ → Dbl64}
    (hx : UserArray w x n (doubles d)) (hq : -1074 ≤ q) (hq' : q ≤ 900) {k : ℕ → ℤ} (hk : ∀ t < n, Dbl64.Finite (d t) ∧ (d t).val = k t * 2 ^ q)
    (hs : ∑ t ∈ Finset.range n, |k t| ≤ 2 ^ 53) (e : DctEntry) (he : e = .fwd ∨ e = .fwdn) :
    letI := i.arith Dbl64
    ∃ out : ℕ → Dbl64, Computes (realDCT (Xmm Dbl64) thr) n [(e, x)] w x n (doubles out) ∧
      Dbl64.Finite (out 0) ∧ (out 0).val = rnd64 ((∑ t ∈ Finset.range n, (d t).val) / n) := by
  letI := i.arith Dbl64
  letI := i.arith (Rounded rnd64)
  have ok := oneArray_ok (C := Xmm (Rounded rnd64)) n (doubles fun t => ⟨(d t).val⟩)
  obtain ⟨out, outr, g1, g2, g3⟩ := C82_dct (M := 2 ^ 953) i thr hn h30 hx ok
    (by
      have : (n:ℝ) ≤ 2 ^ 31 := by exact_mod_cast RealLen.le31 hn
      calc (n:ℝ) * 2 ^ 953 ≤ 2 ^ 31 * 2 ^ 953 := mul_le_mul_of_nonneg_right this (by positivity)
        _ = 2 ^ 984 := by rw [← pow_add]
        _ ≤ 2 ^ 1016 := pow_le_pow_right₀ (by norm_num) (by norm_num))
    (fun t ht => ⟨(hk t ht).1, by rw [(hk t ht).2]; exact fixed_small (abs_le_total hs ht) hq'⟩) e
  obtain ⟨o, g4, g5⟩ := C88_dct i thr hn h30 ok hq (k := k) (fun t ht => (hk t ht).2) hs e he
  refine ⟨out, g1, (g3 0 hn.pos).1, ?_⟩
  have := congrFun (computes_unique (by simp [oneArray]) g2 g4 0 hn.pos) 0
  rw [(g3 0 hn.pos).2, show outr 0 = doubles outr 0 0 from rfl, this]
  exact g5

end

/-! ### the other lengths of the complex transform -/

section
variable {n : ℕ} {q : ℤ}

/-- C88: complex data of a length that is not a power of two: element 0 is the exact sum multiplied by the rounded `1/n` — not always the double nearest to the mean value. -/
theorem C88_other (i : Target) (thr : Thr) (hn : ValidLen n) (hp : ∀ l, n ≠ 2 ^ l) {w : World (Xmm (Rounded rnd64))} {x : Ptr}
    {v : ℕ → Xmm (Rounded rnd64)} (hx : UserArray w x n v) (hq : -1074 ≤ q) {k : ℕ → Fin 2 → ℤ} (hk : ∀ t < n, ∀ j, (v t j).val = k t j * 2 ^ q)
    (hs : ∀ j, ∑ t ∈ Finset.range n, |k t j| ≤ 2 ^ 53) (e : Entry)
    (he : e = .fwd ∨ e = .fwdn ∨ e = .invn ∧ ∀ p, p.Prime → p ∣ n → p ≤ 5) :
    letI := i.arith (Rounded rnd64)
    ∃ out : ℕ → Xmm (Rounded rnd64), Computes (complexFFT (Xmm (Rounded rnd64)) thr) n [(e, x)] w x n out ∧
      ∀ j, (out 0 j).val = rnd64 (rnd64 (1 / n) * ∑ t ∈ Finset.range n, (v t j).val) := by
  letI := i.arith (Rounded rnd64)
  refine ⟨_, ⟨FFT.calls (es := [e]) hn hx, FFT.lifetime_noFail _ (by have := hn.two; omega) _ (lenNat_calls _)⟩, fun j => ?_⟩
  have hm : e.mode = .scale_length ∧ (e.isInv = true → ∀ p, p.Prime → p ∣ n → p ≤ 5) := by
    rcases he with rfl | rfl | ⟨rfl, h⟩
    · exact ⟨rfl, fun h => by cases h⟩
    · exact ⟨rfl, fun h => by cases h⟩
    · exact ⟨rfl, fun _ => h⟩
  show (fftOut (Xmm (Rounded rnd64)) thr e.isInv e.mode n v 0 j).val = _
  have hd : dispatch (logOf n) = some .mixed := by
    cases hl : logOf n with
    | none => rfl
    | some k => exact absurd (logOf_some hl) (hp k)
  obtain ⟨⟨c, -, h2⟩, -⟩ := out_tree rnd64_keeps i thr hn.two (v := v) (inv := e.isInv) (fun t ht => by
    have r := fun j => (by rw [hk t ht j]; exact rnd64_repr (abs_le_total (k := fun t => k t j) (hs j) ht) hq : rnd64 (v t j).val = (v t j).val)
    exact ⟨r 0, r 1⟩) hm.2
  have h5 := tree_exact (k := fun t => k t j) hq h2 (fun t ht => hk t (Multiset.mem_range.1 ht) j) (hs j)
  rw [msum_range, total_eq fun t ht => hk t ht j] at h5
  rw [hm.1, ← h5]
  unfold fftOut
  rw [hd]
  show (scl (fdiv (fofNat 1) (fofNat n)) (mixRec e.isInv n (mixTabVal (Xmm (Rounded rnd64)) n) n 1 v 0) j).val =
    rnd64 (rnd64 (1 / n) * (mixRec e.isInv n (mixTabVal (Xmm (Rounded rnd64)) n) n 1 v 0 j).val)
  generalize mixRec e.isInv n (mixTabVal (Xmm (Rounded rnd64)) n) n 1 v 0 = z
  rw [scl_arith i]
  have h1 : (fdiv (fofNat 1) (fofNat n) : Rounded rnd64).val = rnd64 (1 / n) := by
    show rnd64 (((1:ℕ):ℝ) / (n:ℝ)) = _
    rw [Nat.cast_one]
  rw [← h1]
  match j with
  | 0 => rfl
  | 1 => rfl

/-- C88: … with IEEE doubles, `q ≤ 900`. -/
theorem C88_other_ieee (i : Target) (thr : Thr) (hn : ValidLen n) (hp : ∀ l, n ≠ 2 ^ l) {w : World (Xmm Dbl64)} {x : Ptr}
    {v : ℕ → Xmm Dbl64} (hx : UserArray w x n v) (hq : -1074 ≤ q) (hq' : q ≤ 900) {k : ℕ → Fin 2 → ℤ}
    (hk : ∀ t < n, ∀ j, Dbl64.Finite (v t j) ∧ (v t j).val = k t j * 2 ^ q)
    (hs : ∀ j, ∑ t ∈ Finset.range n, |k t j| ≤ 2 ^ 53) (e : Entry)
    (he : e = .fwd ∨ e = .fwdn ∨ e = .invn ∧ ∀ p, p.Prime → p ∣ n → p ≤ 5) :
    letI := i.arith Dbl64
    ∃ out : ℕ → Xmm Dbl64, Computes (complexFFT (Xmm Dbl64) thr) n [(e, x)] w x n out ∧
      ∀ j, Dbl64.Finite (out 0 j) ∧ (out 0 j).val = rnd64 (rnd64 (1 / n) * ∑ t ∈ Finset.range n, (v t j).val) := by
  letI := i.arith Dbl64
  letI := i.arith (Rounded rnd64)
  have h0 : 0 < n := by have := hn.two; omega
  obtain ⟨out, outr, h1, h2, h3⟩ := C82_complex (M := 2 ^ 954) (wr := oneArray n (vals64 v)) (xr := Ptr.base 1) i thr hn hx (oneArray_ok n _)
    (by
      have : (n:ℝ) ≤ 2 ^ 31 := by exact_mod_cast hn.int.le
      calc (n:ℝ) * 2 ^ 954 ≤ 2 ^ 31 * 2 ^ 954 := mul_le_mul_of_nonneg_right this (by positivity)
        _ = 2 ^ 985 := by rw [← pow_add]
        _ ≤ 2 ^ 1019 := pow_le_pow_right₀ (by norm_num) (by norm_num))
    (fun t ht => ⟨⟨(hk t ht 0).1, (hk t ht 1).1⟩, le_trans (norm_le_sum _) (by
      have b := fun j => fixed_small (abs_le_total (k := fun t => k t j) (hs j) ht) hq'
      have b0 := b 0
      have b1 := b 1
      rw [← (hk t ht 0).2] at b0
      rw [← (hk t ht 1).2] at b1
      rw [show (2:ℝ) ^ 954 = 2 ^ 953 + 2 ^ 953 by rw [pow_succ]; ring]
      exact add_le_add b0 b1)⟩) e
  obtain ⟨o, h4, h5⟩ := C88_other i thr hn hp (oneArray_ok n (vals64 v)) hq (k := k) (fun t ht j => (hk t ht j).2) hs e he
  refine ⟨out, h1, fun j => ⟨(h3 0 h0 j).1, ?_⟩⟩
  rw [(h3 0 h0 j).2, computes_unique (by simp [oneArray]) h2 h4 0 h0]
  exact h5 j

end

/-! ### the mean value of ones -/

omit [Libm] in
/-- the nearest double, in terms of its significand -/
theorem rnd64_at {x : ℝ} (e : ℕ) (m : ℤ) (he : e ≤ 1074) (h1 : 2 ^ 52 < |m|) (h2 : |m| < 2 ^ 53) (hx : |x * 2 ^ e - m| < 1 / 2) : rnd64 x = m / 2 ^ e := by
  have hp : (0:ℝ) < 2 ^ e := by positivity
  have a1 : (2 ^ 52 + 1 : ℝ) ≤ |(m:ℝ)| := by rw [← Int.cast_abs]; exact_mod_cast h1
  have a2 : |(m:ℝ)| ≤ 2 ^ 53 - 1 := by rw [← Int.cast_abs, le_sub_iff_add_le]; exact_mod_cast h2
  obtain ⟨b1, b2⟩ : (2 ^ 52 : ℝ) ≤ |x| * 2 ^ e ∧ |x| * 2 ^ e < 2 ^ 53 := by
    have em : |x| * 2 ^ e = |x * 2 ^ e| := by rw [abs_mul, abs_of_pos hp]
    rw [em]
    have b := abs_sub_abs_le_abs_sub (x * 2 ^ e) (m:ℝ)
    have b' := abs_sub_abs_le_abs_sub (m:ℝ) (x * 2 ^ e)
    rw [abs_sub_comm] at b'
    constructor <;> linarith
  have hl : lastPlace x = -e := by
    have hx0 : x ≠ 0 := by rintro rfl; norm_num at b1
    have c1 : (52:ℤ) - e ≤ Int.log 2 |x| := log_ge_of (by
      rw [zpow_sub₀ (by norm_num), zpow_natCast, div_le_iff₀ hp, zpow_ofNat]; exact b1)
    have c2 : Int.log 2 |x| < 53 - e := by
      refine (zpow_lt_zpow_iff_right₀ (show (1:ℝ) < 2 by norm_num)).1 (lt_of_le_of_lt (log_le_abs hx0) ?_)
      rw [zpow_sub₀ (by norm_num), zpow_natCast, lt_div_iff₀ hp, zpow_ofNat]; exact b2
    unfold lastPlace
    omega
  unfold rnd64
  rw [hl, zpow_neg, zpow_natCast, div_inv_eq_mul, rne_near hx]
  rfl

/-- C88: the difference shows. `ComplexFFT` of length 98 finds that the mean value of 98 ones is `1 - 2^-53`; `RealFFT` of the same length
finds 1. -/
theorem C88_ones (i : Target) (thr : Thr) :
    letI := i.arith Dbl64
    (∃ out : ℕ → Xmm Dbl64, Computes (complexFFT (Xmm Dbl64) thr) 98 [(.fwd, Ptr.base 1)]
      (oneArray 98 fun _ => (![⟨.num ((1:ℤ):ℝ) false⟩, ⟨.num ((0:ℤ):ℝ) false⟩] : Xmm Dbl64)) (Ptr.base 1) 98 out ∧ (out 0 0).val = 1 - 1 / 2 ^ 53) ∧
    (∃ out : ℕ → Xmm Dbl64, Computes (realFFT (Xmm Dbl64) thr) 98 [(.fwd, Ptr.base 1, Ptr.base 2)]
      (twoArrays 98 (doubles fun _ => ⟨.num ((1:ℤ):ℝ) false⟩)) (Ptr.base 2) 98 out ∧ (out 0 0).val = 1) := by
  letI := i.arith Dbl64
  have z : ∀ m : ℤ, ((m:ℤ):ℝ) = (m:ℝ) * 2 ^ (0:ℤ) := fun m => by simp
  constructor
  · obtain ⟨out, h, a⟩ := C88_other_ieee i thr (n := 98) (q := 0) (validLen_of_le (by omega) (by omega))
      (fun l h => by
        have h3 : 7 ∣ 2 ^ l := h ▸ (by norm_num : 7 ∣ 98)
        have := (by norm_num : Nat.Prime 7).dvd_of_dvd_pow h3
        omega)
      (oneArray_ok 98 (fun _ => (![⟨.num ((1:ℤ):ℝ) false⟩, ⟨.num ((0:ℤ):ℝ) false⟩] : Xmm Dbl64))) (by norm_num) (by norm_num)
      (k := fun t => ![1, 0]) (fun t ht j => by
        match j with
        | 0 => exact ⟨finite_int (by norm_num) _, z 1⟩
        | 1 => exact ⟨finite_int (by norm_num) _, z 0⟩)
      (fun j => by
        match j with
        | 0 =>
          show ∑ t ∈ Finset.range 98, |(1:ℤ)| ≤ _
          rw [Finset.sum_const, Finset.card_range]
          norm_num
        | 1 =>
          show ∑ t ∈ Finset.range 98, |(0:ℤ)| ≤ _
          rw [Finset.sum_const, Finset.card_range]
          norm_num)
      .fwd (.inl rfl)
    refine ⟨out, h, (a 0).2.trans ?_⟩
    show rnd64 (rnd64 (1 / ((98:ℕ):ℝ)) * ∑ t ∈ Finset.range 98, ((1:ℤ):ℝ)) = _
    rw [Finset.sum_const, Finset.card_range, rnd64_at (x := 1 / ((98:ℕ):ℝ)) 59 5882252574524729 (by norm_num) (by norm_num) (by norm_num)
      (by push_cast; rw [abs_lt]; constructor <;> norm_num), rnd64_at 53 (2 ^ 53 - 1) (by norm_num) (by norm_num) (by norm_num)
      (by push_cast; rw [abs_lt]; constructor <;> norm_num)]
    push_cast
    norm_num
  · have ok := twoArrays_ok 98 (doubles fun _ => (⟨.num ((1:ℤ):ℝ) false⟩ : Dbl64))
    obtain ⟨out, h, a, -⟩ := C88_real_ieee (n := 98) (q := 0) i thr (realLen_of_le (m := 49) (by omega) (by omega)) ok.wf ok.arr
      (twoArrays_alloc _ _) (twoArrays_sep _) (by norm_num) (by norm_num) (k := fun _ => 1)
      (fun t ht => ⟨finite_int (by norm_num) _, z 1⟩) (by rw [Finset.sum_const, Finset.card_range]; norm_num) .fwd (.inl rfl)
    refine ⟨out, h, a.trans ?_⟩
    show rnd64 ((∑ t ∈ Finset.range 98, ((1:ℤ):ℝ)) / ((98:ℕ):ℝ)) = _
    rw [Finset.sum_const, Finset.card_range]
    have : ((98 • ((1:ℤ):ℝ)) / ((98:ℕ):ℝ)) = 1 := by norm_num
    rw [this, rnd64_keeps.one]

/-! ### concrete cases -/

/-- length 16, element `t` is `t + 3 i`: the mean is 7.5 + 3 i, exactly -/
example (thr : Thr) : letI := avxBuild.arith Dbl64
    ∃ out : ℕ → Xmm Dbl64, Computes (complexFFT (Xmm Dbl64) thr) (2 ^ 4) [(.fwd, Ptr.base 1)]
      (oneArray (2 ^ 4) fun t => (![⟨.num ((t:ℤ):ℝ) false⟩, ⟨.num ((3:ℤ):ℝ) false⟩] : Xmm Dbl64)) (Ptr.base 1) (2 ^ 4) out ∧
      (out 0 0).val = 7.5 ∧ (out 0 1).val = 3 := by
  have z : ∀ m : ℤ, ((m:ℤ):ℝ) = (m:ℝ) * 2 ^ (0:ℤ) := fun m => by simp
  obtain ⟨out, h, a⟩ := C88_ieee avxBuild thr (l := 4) (q := 0) (by norm_num) (by norm_num)
    (oneArray_ok (2 ^ 4) (fun t => (![⟨.num ((t:ℤ):ℝ) false⟩, ⟨.num ((3:ℤ):ℝ) false⟩] : Xmm Dbl64))) (by norm_num) (by norm_num)
    (k := fun t => ![(t:ℤ), 3]) (fun t ht j => by
      match j with
      | 0 => exact ⟨finite_int (by rw [abs_of_nonneg (by positivity)]; omega) _, z t⟩
      | 1 => exact ⟨finite_int (by norm_num) _, z 3⟩)
    (fun j => by
      match j with
      | 0 => decide
      | 1 => decide)
    .fwd (by simp)
  refine ⟨out, h, (a 0).2.trans ?_, (a 1).2.trans ?_⟩
  · show (∑ t ∈ Finset.range 16, ((t:ℤ):ℝ)) / 2 ^ 4 = 7.5
    simp [Finset.sum_range_succ]
    norm_num
  · show (∑ t ∈ Finset.range 16, ((3:ℤ):ℝ)) / 2 ^ 4 = 3
    simp
    norm_num

/-- real data of length 12: 0, 1, 2, …, 11. The mean is 5.5, the alternating mean is -0.5 -/
example (thr : Thr) : letI := sse2Build.arith Dbl64
    ∃ out : ℕ → Xmm Dbl64, Computes (realFFT (Xmm Dbl64) thr) 12 [(.fwd, Ptr.base 1, Ptr.base 2)]
      (twoArrays 12 (doubles fun t => ⟨.num ((t:ℤ):ℝ) false⟩)) (Ptr.base 2) 12 out ∧ (out 0 0).val = rnd64 (66 / 12) ∧ (out 6 0).val = rnd64 (-6 / 12) := by
  have ok := twoArrays_ok 12 (doubles fun t => (⟨.num ((t:ℤ):ℝ) false⟩ : Dbl64))
  obtain ⟨out, h, a, -, b⟩ := C88_real_ieee (n := 12) (q := 0) sse2Build thr (realLen_of_le (m := 6) (by omega) (by omega)) ok.wf ok.arr
    (twoArrays_alloc _ _) (twoArrays_sep _) (by norm_num) (by norm_num) (k := fun t => (t:ℤ))
    (fun t ht => ⟨finite_int (by rw [abs_of_nonneg (by positivity)]; omega) _, (show ((t:ℤ):ℝ) = ((t:ℤ):ℝ) * 2 ^ (0:ℤ) by simp)⟩) (by decide) .fwd (.inl rfl)
  refine ⟨out, h, a.trans ?_, (b 6 (by norm_num)).1.trans ?_⟩
  · show rnd64 ((∑ t ∈ Finset.range 12, ((t:ℤ):ℝ)) / ((12:ℕ):ℝ)) = _
    congr 1
    simp [Finset.sum_range_succ]
    norm_num
  · show rnd64 ((∑ t ∈ Finset.range 12, (-1) ^ t * ((t:ℤ):ℝ)) / ((12:ℕ):ℝ)) = _
    congr 1
    simp [Finset.sum_range_succ]
    norm_num

/-- length 30, not a power of two: the rounded 1/30 times 435 -/
example (thr : Thr) : letI := sse2Build.arith (Rounded rnd64)
    ∃ out : ℕ → Xmm (Rounded rnd64), Computes (complexFFT (Xmm (Rounded rnd64)) thr) 30 [(.fwd, Ptr.base 1)]
      (oneArray 30 fun t => (![⟨((t:ℤ):ℝ)⟩, ⟨((0:ℤ):ℝ)⟩] : Xmm (Rounded rnd64))) (Ptr.base 1) 30 out ∧ (out 0 0).val = rnd64 (rnd64 (1 / 30) * 435) := by
  have z : ∀ m : ℤ, ((m:ℤ):ℝ) = (m:ℝ) * 2 ^ (0:ℤ) := fun m => by simp
  obtain ⟨out, h, a⟩ := C88_other sse2Build thr (n := 30) (q := 0) (validLen_of_le (by omega) (by omega))
    (fun l h => by
      have h3 : 3 ∣ 2 ^ l := h ▸ (by norm_num : 3 ∣ 30)
      have := Nat.prime_three.dvd_of_dvd_pow h3
      omega)
    (oneArray_ok 30 (fun t => (![⟨((t:ℤ):ℝ)⟩, ⟨((0:ℤ):ℝ)⟩] : Xmm (Rounded rnd64)))) (by norm_num)
    (k := fun t => ![(t:ℤ), 0]) (fun t ht j => by
      match j with
      | 0 => exact z t
      | 1 => exact z 0)
    (fun j => by
      match j with
      | 0 => decide
      | 1 => decide)
    .fwd (.inl rfl)
  refine ⟨out, h, (a 0).trans ?_⟩
  show rnd64 (rnd64 (1 / ((30:ℕ):ℝ)) * ∑ t ∈ Finset.range 30, ((t:ℤ):ℝ)) = _
  congr 1
  simp [Finset.sum_range_succ]
  norm_num

end OTFFT.Props
