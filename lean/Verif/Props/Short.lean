/-
C91: transforms of length 2 and 4 consist of additions and subtractions only; they are exact for fixed point numbers.
-/
import Verif.Props.Nyquist

namespace OTFFT.Props

/-! ### any arithmetic -/

theorem jxpz_arith {F : Type} [FArith F] (i : Target) (a : Xmm F) : (letI := i.arith F; jxpz a) = pairJ a := by
  obtain ⟨s2, s3, f, av, a5⟩ := i
  cases s2 <;> cases s3 <;> cases f <;> (funext j; fin_cases j <;> rfl)

theorem out2 {F C : Type} [DArith F] [CArith F C] (thr : Thr) (inv : Bool) (v : ℕ → C) :
    fftOut C thr inv .scale_1 2 v 0 = addpz (v 0) (v 1) ∧ fftOut C thr inv .scale_1 2 v 1 = subpz (v 0) (v 1) := by
  have : logOf 2 = some 1 := logOf_pow 1
  simp only [fftOut, this, dispatch, algoOut, stockOut]
  rw [ditRec.eq_def, dif_pos (by norm_num)]
  exact ⟨rfl, rfl⟩

theorem out4 {F C : Type} [DArith F] [CArith F C] (thr : Thr) (inv : Bool) (v : ℕ → C) :
    fftOut C thr inv .scale_1 4 v 0 = addpz (addpz (v 0) (v 2)) (addpz (v 1) (v 3)) ∧
    fftOut C thr inv .scale_1 4 v 1 = (if inv then addpz else subpz) (subpz (v 0) (v 2)) (jxpz (subpz (v 1) (v 3))) ∧
    fftOut C thr inv .scale_1 4 v 2 = subpz (addpz (v 0) (v 2)) (addpz (v 1) (v 3)) ∧
    fftOut C thr inv .scale_1 4 v 3 = (if inv then subpz else addpz) (subpz (v 0) (v 2)) (jxpz (subpz (v 1) (v 3))) := by
  have : logOf 4 = some 2 := logOf_pow 2
  simp only [fftOut, this, dispatch, algoOut, stockOut]
  rw [difRec.eq_def, dif_pos (by norm_num)]
  cases inv <;> exact ⟨rfl, rfl, rfl, rfl⟩

theorem mode_1 {e : Entry} (he : e ∈ [Entry.fwd0, .inv, .inv0]) : e.mode = .scale_1 := by
  simp only [List.mem_cons, List.not_mem_nil, or_false] at he
  rcases he with rfl | rfl | rfl <;> rfl

/-- C91: length 2, transforms that do not normalise, any arithmetic: the sum and the difference of the two elements, one addition or
subtraction for every number of the result. -/
theorem C91_two {F : Type} [FArith F] [Inhabited (Xmm F)] (i : Target) (thr : Thr) {w : World (Xmm F)} {x : Ptr} {v : ℕ → Xmm F} (hx : UserArray w x 2 v) (e : Entry)
    (he : e ∈ [Entry.fwd0, .inv, .inv0]) :
    letI := i.arith F
    ∃ out : ℕ → Xmm F, Computes (complexFFT (Xmm F) thr) 2 [(e, x)] w x 2 out ∧
      out 0 = pairAdd (v 0) (v 1) ∧ out 1 = pairSub (v 0) (v 1) := by
  letI := i.arith F
  have hn : ValidLen 2 := validLen_pow 1 (le_refl _) (by norm_num)
  refine ⟨_, ⟨FFT.calls (es := [e]) hn hx, FFT.lifetime_noFail _ (by norm_num) _ (lenNat_calls _)⟩, ?_⟩
  show fftOut (Xmm F) thr e.isInv e.mode 2 v 0 = _ ∧ fftOut (Xmm F) thr e.isInv e.mode 2 v 1 = _
  rw [mode_1 he]
  obtain ⟨a, b⟩ := out2 thr e.isInv v
  exact ⟨a.trans (addpz_arith i _ _), b.trans (subpz_arith i _ _)⟩

/-- C91: length 4, transforms that do not normalise, any arithmetic: no multiplication, and two additions or subtractions for every number
of the result. -/
theorem C91_four {F : Type} [FArith F] [Inhabited (Xmm F)] (i : Target) (thr : Thr) {w : World (Xmm F)} {x : Ptr} {v : ℕ → Xmm F} (hx : UserArray w x 4 v) (e : Entry)
    (he : e ∈ [Entry.fwd0, .inv, .inv0]) :
    letI := i.arith F
    ∃ out : ℕ → Xmm F, Computes (complexFFT (Xmm F) thr) 4 [(e, x)] w x 4 out ∧
      out 0 = pairAdd (pairAdd (v 0) (v 2)) (pairAdd (v 1) (v 3)) ∧
      out 1 = (if e = .fwd0 then pairSub else pairAdd) (pairSub (v 0) (v 2)) (pairJ (pairSub (v 1) (v 3))) ∧
      out 2 = pairSub (pairAdd (v 0) (v 2)) (pairAdd (v 1) (v 3)) ∧
      out 3 = (if e = .fwd0 then pairAdd else pairSub) (pairSub (v 0) (v 2)) (pairJ (pairSub (v 1) (v 3))) := by
  letI := i.arith F
  have hn : ValidLen 4 := validLen_pow 2 (by norm_num) (by norm_num)
  refine ⟨_, ⟨FFT.calls (es := [e]) hn hx, FFT.lifetime_noFail _ (by norm_num) _ (lenNat_calls _)⟩, ?_⟩
  show fftOut (Xmm F) thr e.isInv e.mode 4 v 0 = _ ∧ fftOut (Xmm F) thr e.isInv e.mode 4 v 1 = _ ∧ fftOut (Xmm F) thr e.isInv e.mode 4 v 2 = _ ∧
    fftOut (Xmm F) thr e.isInv e.mode 4 v 3 = _
  rw [mode_1 he]
  have A : (addpz : Xmm F → Xmm F → Xmm F) = pairAdd := by funext a b; exact addpz_arith i a b
  have B : (subpz : Xmm F → Xmm F → Xmm F) = pairSub := by funext a b; exact subpz_arith i a b
  have J : (jxpz : Xmm F → Xmm F) = pairJ := by funext a; exact jxpz_arith i a
  have h := out4 thr e.isInv v
  rw [A, B, J] at h
  simp only [List.mem_cons, List.not_mem_nil, or_false] at he
  rcases he with rfl | rfl | rfl <;> exact h

/-! ### fixed point numbers -/

variable [Libm]

section
variable {q : ℤ}

omit [Libm] in
theorem om_two (inv : Bool) : om inv 2 = -1 := by
  rw [om]
  cases inv
  · rw [show (if false = true then 1 else -1) * (2 * (Real.pi:ℂ) * Complex.I) / ((2:ℕ):ℂ) = -(Real.pi * Complex.I) by push_cast; simp; ring, Complex.exp_neg, Complex.exp_pi_mul_I]
    norm_num
  · rw [show (if true = true then 1 else -1) * (2 * (Real.pi:ℂ) * Complex.I) / ((2:ℕ):ℂ) = (Real.pi * Complex.I) by push_cast; simp; ring, Complex.exp_pi_mul_I]

omit [Libm] in
theorem om_four (inv : Bool) : om inv 4 = if inv then Complex.I else -Complex.I := by
  rw [om]
  cases inv
  · rw [show (if false = true then 1 else -1) * (2 * (Real.pi:ℂ) * Complex.I) / ((4:ℕ):ℂ) = -(Real.pi / 2 * Complex.I) by push_cast; simp; ring, Complex.exp_neg, Complex.exp_pi_div_two_mul_I]
    simp
  · rw [show (if true = true then 1 else -1) * (2 * (Real.pi:ℂ) * Complex.I) / ((4:ℕ):ℂ) = (Real.pi / 2 * Complex.I) by push_cast; simp; ring, Complex.exp_pi_div_two_mul_I]
    simp

/-- `z` is the pair of fixed point numbers `k 2^q`, `m` bounds the integers -/
def Fix (q m : ℤ) (z : Xmm (Rounded rnd64)) : Prop := ∃ k : Fin 2 → ℤ, (∀ j, (z j).val = k j * 2 ^ q) ∧ ∀ j, |k j| ≤ m

theorem fix_op {m m' : ℤ} (hq : -1074 ≤ q) {a b : Xmm (Rounded rnd64)} (ha : Fix q m a) (hb : Fix q m' b) (h : m + m' ≤ 2 ^ 53) :
    (Fix q (m + m') (pairAdd a b) ∧ cval Rounded.val (pairAdd a b) = cval Rounded.val a + cval Rounded.val b) ∧
    (Fix q (m + m') (pairSub a b) ∧ cval Rounded.val (pairSub a b) = cval Rounded.val a - cval Rounded.val b) := by
  obtain ⟨k, hk, bk⟩ := ha
  obtain ⟨l, hl, bl⟩ := hb
  have e1 : ∀ j, rnd64 ((a j).val + (b j).val) = (a j).val + (b j).val ∧ (a j).val + (b j).val = ((k j + l j : ℤ) : ℝ) * 2 ^ q := fun j => by
    have e : (a j).val + (b j).val = ((k j + l j : ℤ) : ℝ) * 2 ^ q := by rw [hk, hl]; push_cast; ring
    exact ⟨by rw [e]; exact rnd64_repr (((abs_add_le _ _).trans (add_le_add (bk j) (bl j))).trans h) hq, e⟩
  have e2 : ∀ j, rnd64 ((a j).val - (b j).val) = (a j).val - (b j).val ∧ (a j).val - (b j).val = ((k j - l j : ℤ) : ℝ) * 2 ^ q := fun j => by
    have e : (a j).val - (b j).val = ((k j - l j : ℤ) : ℝ) * 2 ^ q := by rw [hk, hl]; push_cast; ring
    exact ⟨by rw [e]; exact rnd64_repr (((abs_sub _ _).trans (add_le_add (bk j) (bl j))).trans h) hq, e⟩
  refine ⟨⟨⟨fun j => k j + l j, fun j => ?_, fun j => (abs_add_le _ _).trans (add_le_add (bk j) (bl j))⟩, Complex.ext (e1 0).1 (e1 1).1⟩,
    ⟨⟨fun j => k j - l j, fun j => ?_, fun j => (abs_sub _ _).trans (add_le_add (bk j) (bl j))⟩, Complex.ext (e2 0).1 (e2 1).1⟩⟩
  · match j with
    | 0 => exact (e1 0).1.trans (e1 0).2
    | 1 => exact (e1 1).1.trans (e1 1).2
  · match j with
    | 0 => exact (e2 0).1.trans (e2 0).2
    | 1 => exact (e2 1).1.trans (e2 1).2

theorem fix_J {m : ℤ} {a : Xmm (Rounded rnd64)} (ha : Fix q m a) : Fix q m (pairJ a) ∧ cval Rounded.val (pairJ a) = Complex.I * cval Rounded.val a := by
  obtain ⟨k, hk, bk⟩ := ha
  have n0 : ∀ b : Rounded rnd64, (fneg b : Rounded rnd64).val = -b.val := fun _ => rfl
  refine ⟨⟨![-k 1, k 0], fun j => ?_, fun j => ?_⟩, Complex.ext ?_ ?_⟩
  · match j with
    | 0 => show (fneg (a 1) : Rounded rnd64).val = ((-k 1 : ℤ) : ℝ) * 2 ^ q; rw [n0, hk]; push_cast; ring
    | 1 => exact hk 0
  · match j with
    | 0 => show |-k 1| ≤ m; rw [abs_neg]; exact bk 1
    | 1 => exact bk 0
  · show (fneg (a 1) : Rounded rnd64).val = _
    rw [n0]; simp [cval]
  · show (a 0).val = _
    simp [cval]

/-- C91: fixed point numbers, integers times `2^q`, `q ≥ -1074`: if the sum of the absolute values of all the integers is at most `2^53`, the
transforms of length 2 and 4 that do not normalise are exact, in every element. -/
theorem C91_exact (i : Target) (thr : Thr) {n : ℕ} (hn : n = 2 ∨ n = 4) {w : World (Xmm (Rounded rnd64))} {x : Ptr}
    {v : ℕ → Xmm (Rounded rnd64)} (hx : UserArray w x n v) (hq : -1074 ≤ q) {k : ℕ → Fin 2 → ℤ}
    (hk : ∀ t < n, ∀ j, (v t j).val = k t j * 2 ^ q)
    (hs : ∑ t ∈ Finset.range n, (|k t 0| + |k t 1|) ≤ 2 ^ 53) (e : Entry) (he : e ∈ [Entry.fwd0, .inv, .inv0]) :
    letI := i.arith (Rounded rnd64)
    ∃ out : ℕ → Xmm (Rounded rnd64), Computes (complexFFT (Xmm (Rounded rnd64)) thr) n [(e, x)] w x n out ∧
      ∀ t < n, cval Rounded.val (out t) = e.exact n (fun s => cval Rounded.val (v s)) t := by
  letI := i.arith (Rounded rnd64)
  have f : ∀ t < n, Fix q (|k t 0| + |k t 1|) (v t) := fun t ht => ⟨k t, hk t ht, fun j => by
    have a := abs_nonneg (k t 0)
    have b := abs_nonneg (k t 1)
    match j with
    | 0 => omega
    | 1 => omega⟩
  have nn : ∀ t, 0 ≤ |k t 0| + |k t 1| := fun t => by positivity
  rcases hn with rfl | rfl
  · obtain ⟨out, h1, h2, h3⟩ := C91_two i thr hx e he
    refine ⟨out, h1, fun t ht => ?_⟩
    simp only [Finset.sum_range_succ, Finset.sum_range_zero, zero_add] at hs
    obtain ⟨⟨-, a⟩, -, b⟩ := fix_op hq (f 0 (by omega)) (f 1 (by omega)) hs
    have E : e.exact 2 (fun s => cval Rounded.val (v s)) t = cval Rounded.val (v 0) + cval Rounded.val (v 1) * (-1) ^ t := by
      simp only [List.mem_cons, List.not_mem_nil, or_false] at he
      rcases he with rfl | rfl | rfl <;>
        simp [Entry.exact, Entry.factor, Spec.dft_eq, Spec.idft_eq, xdft_sum, Finset.sum_range_succ, om_two]
    obtain rfl | rfl : t = 0 ∨ t = 1 := by omega
    · rw [E, h2, a]; ring
    · rw [E, h3, b]; ring
  · obtain ⟨out, h1, h2, h3, h4, h5⟩ := C91_four i thr hx e he
    refine ⟨out, h1, fun t ht => ?_⟩
    simp only [Finset.sum_range_succ, Finset.sum_range_zero, zero_add] at hs
    have n0 := nn 0
    have n1 := nn 1
    have n2 := nn 2
    have n3 := nn 3
    obtain ⟨⟨p02, a02⟩, m02, s02⟩ := fix_op hq (f 0 (by omega)) (f 2 (by omega)) (by omega)
    obtain ⟨⟨p13, a13⟩, m13, s13⟩ := fix_op hq (f 1 (by omega)) (f 3 (by omega)) (by omega)
    obtain ⟨j13, t13⟩ := fix_J m13
    obtain ⟨⟨-, a⟩, -, b⟩ := fix_op hq p02 p13 (by omega)
    obtain ⟨⟨-, c⟩, -, d⟩ := fix_op hq m02 j13 (by omega)
    have E : e.exact 4 (fun s => cval Rounded.val (v s)) t = cval Rounded.val (v 0) + cval Rounded.val (v 1) * (om e.isInv 4) ^ t +
        cval Rounded.val (v 2) * (om e.isInv 4) ^ (2 * t) + cval Rounded.val (v 3) * (om e.isInv 4) ^ (3 * t) := by
      simp only [List.mem_cons, List.not_mem_nil, or_false] at he
      rcases he with rfl | rfl | rfl <;>
        simp [Entry.exact, Entry.factor, Entry.isInv, Spec.dft_eq, Spec.idft_eq, xdft_sum, Finset.sum_range_succ]
    have I3 : Complex.I ^ 3 = -Complex.I := Complex.I_pow_three
    have I6 : Complex.I ^ 6 = -1 := by rw [show 6 = 4 + 2 by norm_num, pow_add, Complex.I_pow_four, Complex.I_sq]; ring
    have I9 : Complex.I ^ 9 = Complex.I := by rw [show 9 = 4 + 4 + 1 by norm_num, pow_add, pow_add, Complex.I_pow_four]; ring
    rw [E, om_four]
    simp only [List.mem_cons, List.not_mem_nil, or_false] at he
    obtain rfl | rfl | rfl | rfl : t = 0 ∨ t = 1 ∨ t = 2 ∨ t = 3 := by omega
    · rw [h2, a, a02, a13]; ring
    · rw [h3]
      rcases he with rfl | rfl | rfl
      · rw [if_pos rfl, d, t13, s02, s13]
        simp only [Entry.isInv, Bool.false_eq_true, if_false]
        ring_nf
        simp only [Complex.I_sq, I3]
        ring
      all_goals
        rw [if_neg (by simp), c, t13, s02, s13]
        simp only [Entry.isInv, if_true]
        ring_nf
        simp only [Complex.I_sq, I3]
        ring
    · rw [h4, b, a02, a13]
      rcases he with rfl | rfl | rfl
      all_goals
        simp only [Entry.isInv, Bool.false_eq_true, if_false, if_true]
        ring_nf
        simp only [Complex.I_sq, Complex.I_pow_four, I6]
        ring
    · rw [h5]
      rcases he with rfl | rfl | rfl
      · rw [if_pos rfl, c, t13, s02, s13]
        simp only [Entry.isInv, Bool.false_eq_true, if_false]
        ring_nf
        simp only [I3, I6, I9]
        ring
      all_goals
        rw [if_neg (by simp), d, t13, s02, s13]
        simp only [Entry.isInv, if_true]
        ring_nf
        simp only [I3, I6, I9]
        ring

/-- C91: the same with IEEE doubles, `q ≤ 900`. -/
theorem C91_ieee (i : Target) (thr : Thr) {n : ℕ} (hn : n = 2 ∨ n = 4) {w : World (Xmm Dbl64)} {x : Ptr}
    {v : ℕ → Xmm Dbl64} (hx : UserArray w x n v) (hq : -1074 ≤ q) (hq' : q ≤ 900) {k : ℕ → Fin 2 → ℤ}
    (hk : ∀ t < n, ∀ j, Dbl64.Finite (v t j) ∧ (v t j).val = k t j * 2 ^ q)
    (hs : ∑ t ∈ Finset.range n, (|k t 0| + |k t 1|) ≤ 2 ^ 53) (e : Entry) (he : e ∈ [Entry.fwd0, .inv, .inv0]) :
    letI := i.arith Dbl64
    ∃ out : ℕ → Xmm Dbl64, Computes (complexFFT (Xmm Dbl64) thr) n [(e, x)] w x n out ∧
      ∀ t < n, cfin Dbl64.Finite (out t) ∧ cval Ieee.val (out t) = e.exact n (fun s => cval Ieee.val (v s)) t := by
  letI := i.arith Dbl64
  letI := i.arith (Rounded rnd64)
  have hv : ValidLen n := by
    rcases hn with rfl | rfl
    · exact validLen_pow 1 (le_refl _) (by norm_num)
    · exact validLen_pow 2 (by norm_num) (by norm_num)
  have le : ∀ t < n, ∀ j, |k t j| ≤ 2 ^ 53 := fun t ht j => by
    have a := abs_nonneg (k t 0)
    have b := abs_nonneg (k t 1)
    have c := Finset.single_le_sum (f := fun t => |k t 0| + |k t 1|) (fun _ _ => by positivity) (Finset.mem_range.2 ht)
    beta_reduce at c
    match j with
    | 0 => omega
    | 1 => omega
  obtain ⟨out, outr, h1', h2, h3⟩ := C82_complex (M := 2 ^ 954) (wr := oneArray n (vals64 v)) (xr := Ptr.base 1) i thr hv hx (oneArray_ok n _)
    (by
      have : (n:ℝ) ≤ 2 ^ 31 := by exact_mod_cast hv.int.le
      calc (n:ℝ) * 2 ^ 954 ≤ 2 ^ 31 * 2 ^ 954 := mul_le_mul_of_nonneg_right this (by positivity)
        _ = 2 ^ 985 := by rw [← pow_add]
        _ ≤ 2 ^ 1019 := pow_le_pow_right₀ (by norm_num) (by norm_num))
    (fun t ht => ⟨⟨(hk t ht 0).1, (hk t ht 1).1⟩, le_trans (norm_le_sum _) (by
      have b := fun j => fixed_small (le t ht j) hq'
      have b0 := b 0
      have b1 := b 1
      rw [← (hk t ht 0).2] at b0
      rw [← (hk t ht 1).2] at b1
      rw [show (2:ℝ) ^ 954 = 2 ^ 953 + 2 ^ 953 by rw [pow_succ]; ring]
      exact add_le_add b0 b1)⟩) e
  obtain ⟨o, h4, h5⟩ := C91_exact i thr hn (oneArray_ok n (vals64 v)) hq (k := k) (fun t ht j => (hk t ht j).2) hs e he
  refine ⟨out, h1', fun t ht => ⟨⟨(h3 t ht 0).1, (h3 t ht 1).1⟩, ?_⟩⟩
  have eo : outr t = o t := computes_unique (by simp [oneArray]) h2 h4 t ht
  have e0 := (h3 t ht 0).2
  have e1 := (h3 t ht 1).2
  rw [eo] at e0 e1
  rw [show cval Ieee.val (out t) = cval Rounded.val (o t) from Complex.ext e0 e1]
  exact h5 t ht

/-! ### the real transform of length 4 -/

omit [Libm] in
theorem rfftTab4 {F C : Type} [DArith F] [CArith F C] : rfftTab C 4 1 = half C (fofNat 2) (fofNat 0) := by
  have : logLoop 4 = 2 := logLoop_pow 2
  have c : rfftCnt 4 = 1 := by unfold rfftCnt; rw [this]; rfl
  have it : rfftIts C 4 0 = [(0, half C (fofNat 1) (fofNat 1)), (1, half C (fofNat 2) (fofNat 0)), (2, half C (fofNat 1) (fneg (fofNat 1))),
      (3, half C (fofNat 0) (fofNat 0)), (4, half C (fofNat 1) (fofNat 1))] := by
    unfold rfftIts; simp only [this]; norm_num
  have h : lastIdx (rfftIts C 4 0) 1 = some (half C (fofNat 2) (fofNat 0)) := by
    rw [it]; rfl
  rw [rfftTab, c]
  refine tabOf_at (i := 0) (by omega) h ?_
  intro i hi j hj hij
  omega

theorem rfft4_mid (i : Target) (thr : Thr) {d : ℕ → Rounded rnd64} (hq : -1074 ≤ q) {k : ℕ → ℤ}
    (hk : ∀ t < 4, (d t).val = k t * 2 ^ q) (hs : ∑ t ∈ Finset.range 4, |k t| ≤ 2 ^ 53) :
    letI := i.arith (Rounded rnd64)
    rfftOut (Xmm (Rounded rnd64)) thr .fwd0 4 (doubles d) 1 = ![⟨((k 0 - k 2 : ℤ) : ℝ) * 2 ^ q⟩, ⟨((k 3 - k 1 : ℤ) : ℝ) * 2 ^ q⟩] ∧
    rfftOut (Xmm (Rounded rnd64)) thr .fwd0 4 (doubles d) 3 = ![⟨((k 0 - k 2 : ℤ) : ℝ) * 2 ^ q⟩, ⟨((k 1 - k 3 : ℤ) : ℝ) * 2 ^ q⟩] := by
  letI := i.arith (Rounded rnd64)
  have Z := rounded_zeroOne (ρ := rnd64) rnd64_keeps
  have L := flatLaws Z i
  simp only [Finset.sum_range_succ, Finset.sum_range_zero, zero_add] at hs
  have p0 := abs_nonneg (k 0)
  have p1 := abs_nonneg (k 1)
  have p2 := abs_nonneg (k 2)
  have p3 := abs_nonneg (k 3)
  have b02 := abs_sub (k 0) (k 2)
  have b13 := abs_sub (k 1) (k 3)
  have W1 : fftOut (Xmm (Rounded rnd64)) thr false .scale_1 2 (rfftZin (Xmm (Rounded rnd64)) (doubles d)) 1 =
      ![⟨((k 0 - k 2 : ℤ) : ℝ) * 2 ^ q⟩, ⟨((k 1 - k 3 : ℤ) : ℝ) * 2 ^ q⟩] := by
    rw [(out2 thr false _).2, subpz_arith i]
    refine ext2 (rounded_ext (show rnd64 ((d 0).val - (d 2).val) = _ from ?_)) (rounded_ext (show rnd64 ((d 1).val - (d 3).val) = _ from ?_))
    · rw [hk 0 (by omega), hk 2 (by omega), ← sub_mul, ← Int.cast_sub]
      exact rnd64_repr (by omega) hq
    · rw [hk 1 (by omega), hk 3 (by omega), ← sub_mul, ← Int.cast_sub]
      exact rnd64_repr (by omega) hq
  have U1 : rfftTab (Xmm (Rounded rnd64)) 4 1 = cOne (Rounded rnd64) := by
    rw [rfftTab4]
    refine ext2 (rounded_ext (show rnd64 (((2:ℕ):ℝ) / ((2:ℕ):ℝ)) = ((1:ℕ):ℝ) from ?_)) (rounded_ext (show rnd64 (((0:ℕ):ℝ) / ((2:ℕ):ℝ)) = ((0:ℕ):ℝ) from ?_))
    · rw [show ((2:ℕ):ℝ) / ((2:ℕ):ℝ) = 1 by norm_num, Nat.cast_one]
      exact rnd64_keeps.one
    · rw [Nat.cast_zero, zero_div]
      exact rnd64_keeps.zero
  generalize hA : k 0 - k 2 = A at *
  generalize hB : k 1 - k 3 = B at *
  have eA : rnd64 ((A:ℝ) * 2 ^ q) = A * 2 ^ q := rnd64_repr (by omega) hq
  have eB : rnd64 ((B:ℝ) * 2 ^ q) = B * 2 ^ q := rnd64_repr (by omega) hq
  have eB2 : rnd64 ((B:ℝ) * 2 ^ q - -((B:ℝ) * 2 ^ q)) = B * 2 ^ (q + 1) := by
    rw [show (B:ℝ) * 2 ^ q - -((B:ℝ) * 2 ^ q) = B * 2 ^ (q + 1) by rw [zpow_add₀ (by norm_num), zpow_one]; ring]
    exact rnd64_repr (by omega) (by omega)
  have key : ∀ t, rfftOut (Xmm (Rounded rnd64)) thr .fwd0 4 (doubles d) t =
      rfftPostOut (Xmm (Rounded rnd64)) .scale_1 2 (rfftTab (Xmm (Rounded rnd64)) 4)
        (fftOut (Xmm (Rounded rnd64)) thr false .scale_1 2 (rfftZin (Xmm (Rounded rnd64)) (doubles d))) t := fun t => by
    rw [rfftOut, if_neg (by omega)]
    rfl
  rw [key, key]
  clear key
  generalize fftOut (Xmm (Rounded rnd64)) thr false .scale_1 2 (rfftZin (Xmm (Rounded rnd64)) (doubles d)) = W at *
  generalize rfftTab (Xmm (Rounded rnd64)) 4 = U at *
  have one : ∀ a b c d : Rounded rnd64,
      mulpz (cOne (Rounded rnd64)) (![fsub a b, fsub c d] : Xmm (Rounded rnd64)) = ![fsub a b, fsub c d] :=
    fun a b c d => L.Imul ⟨rnd64_keeps.idem _, rnd64_keeps.idem _⟩
  have cn : ∀ p r : Rounded rnd64, cnjpz (![p, r] : Xmm (Rounded rnd64)) = ![p, fneg r] := fun p r => cnjpz_arith i _
  have sb : ∀ p r p' r' : Rounded rnd64, subpz (![p, r] : Xmm (Rounded rnd64)) ![p', r'] = ![fsub p p', fsub r r'] := fun p r p' r' => subpz_arith i _ _
  have ad : ∀ p r p' r' : Rounded rnd64, addpz (![p, r] : Xmm (Rounded rnd64)) ![p', r'] = ![fadd p p', fadd r r'] := fun p r p' r' => addpz_arith i _ _
  have mid : rfftMid .scale_1 2 U W 1 = ![⟨(A : ℝ) * 2 ^ q⟩, ⟨((k 3 - k 1 : ℤ) : ℝ) * 2 ^ q⟩] := by
    unfold rfftMid
    rw [if_neg (by norm_num)]
    show cnjpz (addpz (cnjpz (W 1)) (mulpz (U 1) (subpz (W 1) (cnjpz (W 1))))) = _
    rw [U1, W1, cn, sb, one, ad, cn]
    refine ext2 (rounded_ext (show rnd64 ((A:ℝ) * 2 ^ q + rnd64 ((A:ℝ) * 2 ^ q - (A:ℝ) * 2 ^ q)) = _ from ?_))
      (rounded_ext (show -rnd64 (-((B:ℝ) * 2 ^ q) + rnd64 ((B:ℝ) * 2 ^ q - -((B:ℝ) * 2 ^ q))) = _ from ?_))
    · rw [sub_self, rnd64_keeps.zero, add_zero, eA]
      rfl
    · rw [eB2, show -((B:ℝ) * 2 ^ q) + B * 2 ^ (q + 1) = B * 2 ^ q by rw [zpow_add₀ (by norm_num), zpow_one]; ring, eB,
        show k 3 - k 1 = -B by omega]
      push_cast
      ring
  unfold rfftPostOut
  constructor
  · rw [if_neg (by norm_num), if_pos (by norm_num), mid]
  · rw [if_neg (by norm_num), if_neg (by norm_num), if_neg (by norm_num), show 2 * 2 - 3 = 1 by norm_num, mid, cnjpz_arith i]
    refine ext2 rfl (rounded_ext (show -(((k 3 - k 1 : ℤ) : ℝ) * 2 ^ q) = _ from ?_))
    rw [show k 3 - k 1 = -B by omega]
    push_cast
    ring

/-- C91: the real transform of length 4: if the data are integers times `2^q` and the sum of the absolute values of the integers is at most
`2^53`, every element of the spectrum is exact. -/
theorem C91_real (i : Target) (thr : Thr) {w : World (Xmm (Rounded rnd64))} {x y : Ptr} {d : ℕ → Rounded rnd64}
    (hw : w.WF) (hx : Arr w.heap x 4 (doubles d)) (hy : Alloc w.heap y 4) (hxy : Sep x 4 y 4) (hq : -1074 ≤ q) {k : ℕ → ℤ}
    (hk : ∀ t < 4, (d t).val = k t * 2 ^ q) (hs : ∑ t ∈ Finset.range 4, |k t| ≤ 2 ^ 53) :
    letI := i.arith (Rounded rnd64)
    ∃ out : ℕ → Xmm (Rounded rnd64), Computes (realFFT (Xmm (Rounded rnd64)) thr) 4 [(.fwd0, x, y)] w y 4 out ∧
      ∀ t < 4, cval Rounded.val (out t) = Spec.dft 4 (Spec.ofReal fun s => (d s).val) t := by
  letI := i.arith (Rounded rnd64)
  have hn : RealLen 4 := realLen_of_le (m := 2) (by norm_num) (by norm_num)
  have a : RealArgs w .fwd0 4 x y (doubles d) := ⟨hw, hn, hx, hx.alloc, hy, hxy⟩
  refine ⟨_, ComputesIn.toComputes (RFFT.computes (thr := thr) a) (le_refl _) (fun _ _ => rfl), fun t ht => ?_⟩
  obtain ⟨e0, e2⟩ := rfft_sums i thr (le_refl 2) hq hk hs
  obtain ⟨e1, e3⟩ := rfft4_mid i thr hq hk hs
  have E : Spec.dft 4 (Spec.ofReal fun s => (d s).val) t = ((d 0).val : ℂ) + (d 1).val * (om false 4) ^ t +
      (d 2).val * (om false 4) ^ (2 * t) + (d 3).val * (om false 4) ^ (3 * t) := by
    simp [Spec.ofReal, Spec.dft_eq, xdft_sum, Finset.sum_range_succ]
  have c : ∀ (a b : ℝ), (⟨a, b⟩ : ℂ) = a + b * Complex.I := fun a b => by
    apply Complex.ext <;> simp
  have z0 : (fofNat 0 : Rounded rnd64).val = 0 := Nat.cast_zero
  have I3 : Complex.I ^ 3 = -Complex.I := Complex.I_pow_three
  have I6 : Complex.I ^ 6 = -1 := by rw [show 6 = 4 + 2 by norm_num, pow_add, Complex.I_pow_four, Complex.I_sq]; ring
  have I9 : Complex.I ^ 9 = Complex.I := by rw [show 9 = 4 + 4 + 1 by norm_num, pow_add, pow_add, Complex.I_pow_four]; ring
  rw [E, om_four, hk 0 (by omega), hk 1 (by omega), hk 2 (by omega), hk 3 (by omega)]
  simp only [Bool.false_eq_true, if_false]
  have cv : ∀ p r : Rounded rnd64, cval Rounded.val ![p, r] = (p.val : ℂ) + r.val * Complex.I := fun p r => c _ _
  obtain rfl | rfl | rfl | rfl : t = 0 ∨ t = 1 ∨ t = 2 ∨ t = 3 := by omega
  · rw [e0, cv, z0]
    simp only [Nat.reduceMul, Finset.sum_range_succ, Finset.sum_range_zero]
    push_cast
    ring
  · rw [e1, cv]
    push_cast
    ring_nf
    simp only [Complex.I_sq, I3]
    ring
  · rw [e2, cv, z0]
    simp only [Nat.reduceMul, Finset.sum_range_succ, Finset.sum_range_zero]
    push_cast
    ring_nf
    simp only [Complex.I_sq, Complex.I_pow_four, I6]
    ring
  · rw [e3, cv]
    push_cast
    ring_nf
    simp only [I3, I6, I9]
    ring

/-- C91: the real transform of length 4 with IEEE doubles, `q ≤ 900`. -/
theorem C91_real_ieee (i : Target) (thr : Thr) {w : World (Xmm Dbl64)} {x y : Ptr} {d : ℕ → Dbl64}
    (hw : w.WF) (hx : Arr w.heap x 4 (doubles d)) (hy : Alloc w.heap y 4) (hxy : Sep x 4 y 4) (hq : -1074 ≤ q) (hq' : q ≤ 900) {k : ℕ → ℤ}
    (hk : ∀ t < 4, Dbl64.Finite (d t) ∧ (d t).val = k t * 2 ^ q) (hs : ∑ t ∈ Finset.range 4, |k t| ≤ 2 ^ 53) :
    letI := i.arith Dbl64
    ∃ out : ℕ → Xmm Dbl64, Computes (realFFT (Xmm Dbl64) thr) 4 [(.fwd0, x, y)] w y 4 out ∧
      ∀ t < 4, cfin Dbl64.Finite (out t) ∧ cval Ieee.val (out t) = Spec.dft 4 (Spec.ofReal fun s => (d s).val) t := by
  letI := i.arith Dbl64
  letI := i.arith (Rounded rnd64)
  have hn : RealLen 4 := realLen_of_le (m := 2) (by norm_num) (by norm_num)
  have ok := twoArrays_ok (C := Xmm (Rounded rnd64)) 4 (doubles fun t => ⟨(d t).val⟩)
  obtain ⟨out, outr, h1, h2, h3⟩ := C82_real_forward (M := 2 ^ 953) i thr hn hw hx hy hxy ok.wf ok.arr (twoArrays_alloc _ _) (twoArrays_sep _)
    (by
      calc ((4:ℕ):ℝ) * 2 ^ 953 = 2 ^ 955 := by rw [show ((4:ℕ):ℝ) = 2 ^ 2 by norm_num, ← pow_add]
        _ ≤ 2 ^ 1016 := pow_le_pow_right₀ (by norm_num) (by norm_num))
    (fun t ht => ⟨(hk t ht).1, by rw [(hk t ht).2]; exact fixed_small (abs_le_total hs ht) hq'⟩) .fwd0 (by simp)
  obtain ⟨o, h4, h5⟩ := C91_real i thr ok.wf ok.arr (twoArrays_alloc _ _) (twoArrays_sep _) hq (k := k) (fun t ht => (hk t ht).2) hs
  refine ⟨out, h1, fun t ht => ⟨⟨(h3 t ht 0).1, (h3 t ht 1).1⟩, ?_⟩⟩
  have eq : ∀ j, (out t j).val = (o t j).val := fun j => (h3 t ht j).2.trans (by rw [computes_unique (by simp [twoArrays]) h2 h4 t ht])
  exact (Complex.ext (eq 0) (eq 1) : cval Ieee.val (out t) = cval Rounded.val (o t)).trans (h5 t ht)

end

/-- C91 for concrete data: the transform of `1, 2 i, 3, 4 i` -/
example (i : Target) (thr : Thr) :
    letI := i.arith (Rounded rnd64)
    ∃ out : ℕ → Xmm (Rounded rnd64), Computes (complexFFT (Xmm (Rounded rnd64)) thr) 4 [(Entry.fwd0, Ptr.base 1)]
        (oneArray 4 fun t => (![⟨if t % 2 = 0 then t + 1 else 0⟩, ⟨if t % 2 = 0 then 0 else t + 1⟩] : Xmm (Rounded rnd64))) (Ptr.base 1) 4 out ∧
      ∀ t < 4, cval Rounded.val (out t) = Entry.exact 4 .fwd0 (fun s => ⟨if s % 2 = 0 then s + 1 else 0, if s % 2 = 0 then 0 else s + 1⟩) t := by
  letI := i.arith (Rounded rnd64)
  exact C91_exact i thr (.inr rfl)
    (oneArray_ok 4 fun t => (![⟨if t % 2 = 0 then t + 1 else 0⟩, ⟨if t % 2 = 0 then 0 else t + 1⟩] : Xmm (Rounded rnd64)))
    (q := 0) (by norm_num) (k := fun t j => if t % 2 = j.val then t + 1 else 0) (fun t ht j => by
      match j with
      | 0 => rcases Nat.mod_two_eq_zero_or_one t with h | h <;> simp [h]
      | 1 => rcases Nat.mod_two_eq_zero_or_one t with h | h <;> simp [h]) (by norm_num [Finset.sum_range_succ]) .fwd0 (by simp)

end OTFFT.Props
