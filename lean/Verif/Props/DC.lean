/-
C84, C85: element 0 of a transform is a plain sum of the input, computed by additions only.
-/
import Verif.Proof.DC
import Verif.Spec.SumTree
import Verif.Props.Exact64

namespace OTFFT.Props

variable [Libm]

/-! ### the additions -/

section
variable {ρ : ℝ → ℝ} {n : ℕ}

theorem sumLaws (hρ : KeepsDoubles ρ) (i : Target) (v : ℕ → Xmm (Rounded ρ)) :
    letI := i.arith (Rounded ρ)
    SumLaws (F := Rounded ρ) (C := Xmm (Rounded ρ)) (fun c A z => (∃ d ≤ c, SumOf pairAdd v d A z) ∧ ρ (z 0).val = (z 0).val ∧ ρ (z 1).val = (z 1).val)
      (fun z => ρ (z 0).val = (z 0).val ∧ ρ (z 1).val = (z 1).val) := by
  letI := i.arith (Rounded ρ)
  refine ⟨fun h => h.2, fun hc h => ⟨h.1.imp fun d hd => ⟨hd.1.trans hc, hd.2⟩, h.2⟩, ?_⟩
  rintro c A B a b ⟨⟨d, hd, ha⟩, -⟩ ⟨⟨d', hd', hb⟩, -⟩
  have e : (addpz a b : Xmm (Rounded ρ)) = pairAdd a b := addpz_arith i a b
  rw [e]
  exact ⟨⟨_, by omega, .add ha hb⟩, hρ.idem _, hρ.idem _⟩

omit [Libm] in
theorem range_sum (n : ℕ) : ∑ p ∈ Finset.range n, ({p} : Multiset ℕ) = Multiset.range n := by
  rw [Finset.sum_multiset_singleton]
  rfl

theorem out_tree (hρ : KeepsDoubles ρ) (i : Target) (thr : Thr) (h2 : 2 ≤ n) {v : ℕ → Xmm (Rounded ρ)}
    (hv : ∀ t < n, ρ (v t 0).val = (v t 0).val ∧ ρ (v t 1).val = (v t 1).val) {inv : Bool} (hm : inv = true → ∀ p, p.Prime → p ∣ n → p ≤ 5) :
    letI := i.arith (Rounded ρ)
    (∃ c ≤ addDepth n, SumOf pairAdd v c (Multiset.range n) (fftOut (Xmm (Rounded ρ)) thr inv .scale_1 n v 0)) ∧
      ρ (fftOut (Xmm (Rounded ρ)) thr inv .scale_1 n v 0 0).val = (fftOut (Xmm (Rounded ρ)) thr inv .scale_1 n v 0 0).val ∧
      ρ (fftOut (Xmm (Rounded ρ)) thr inv .scale_1 n v 0 1).val = (fftOut (Xmm (Rounded ρ)) thr inv .scale_1 n v 0 1).val := by
  letI := i.arith (Rounded ρ)
  have := (sumLaws hρ i v).fft_sum (S := fun t => {t}) (thr := thr) (flatLaws (rounded_zeroOne hρ) i) h2 hm (c := 0) (fun t ht => ⟨⟨0, le_refl _, .elem t⟩, hv t ht⟩)
  rwa [range_sum, Nat.zero_add] at this

/-! ### fixed point numbers -/

omit [Libm] in
theorem abs_msum (k : ℕ → ℤ) (A : Multiset ℕ) : |(A.map k).sum| ≤ (A.map fun t => |k t|).sum := by
  induction A using Multiset.induction with
  | empty => simp
  | cons a A ih =>
    rw [Multiset.map_cons, Multiset.sum_cons, Multiset.map_cons, Multiset.sum_cons]
    exact le_trans (abs_add_le _ _) (by omega)

theorem tree_exact {v : ℕ → Xmm (Rounded rnd64)} {q : ℤ} (hq : -1074 ≤ q) {k : ℕ → ℤ} {j : Fin 2} {c : ℕ} {A : Multiset ℕ} {z : Xmm (Rounded rnd64)}
    (h : SumOf pairAdd v c A z) (hv : ∀ t ∈ A, (v t j).val = k t * 2 ^ q) (hs : (A.map fun t => |k t|).sum ≤ 2 ^ 53) :
    (z j).val = ((A.map k).sum : ℤ) * 2 ^ q := by
  induction h with
  | elem t => simpa using hv t (by simp)
  | @add _ _ A B a b _ _ iha ihb =>
    rw [Multiset.map_add, Multiset.sum_add] at hs
    have pa : 0 ≤ (A.map fun t => |k t|).sum := Multiset.sum_nonneg (by simp)
    have pb : 0 ≤ (B.map fun t => |k t|).sum := Multiset.sum_nonneg (by simp)
    have ea := iha (fun t ht => hv t (by simp [ht])) (by omega)
    have eb := ihb (fun t ht => hv t (by simp [ht])) (by omega)
    have e : (pairAdd a b j).val = rnd64 ((a j).val + (b j).val) := by
      match j with
      | 0 => rfl
      | 1 => rfl
    rw [e, ea, eb, ← add_mul, ← Int.cast_add, Multiset.map_add, Multiset.sum_add]
    refine rnd64_repr ?_ hq
    have h1 := abs_msum k A
    have h2 := abs_msum k B
    exact le_trans (abs_add_le _ _) (by omega)

omit [Libm] in
theorem msum_range (k : ℕ → ℤ) (n : ℕ) : ((Multiset.range n).map k).sum = ∑ t ∈ Finset.range n, k t := rfl

omit [Libm] in
theorem abs_le_total {k : ℕ → ℤ} (h : ∑ t ∈ Finset.range n, |k t| ≤ 2 ^ 53) {t : ℕ} (ht : t < n) : |k t| ≤ 2 ^ 53 :=
  le_trans (Finset.single_le_sum (f := fun t => |k t|) (fun _ _ => abs_nonneg _) (Finset.mem_range.2 ht)) h

omit [Libm] in
theorem total_eq {k : ℕ → ℤ} {q : ℤ} {f : ℕ → ℝ} (h : ∀ t < n, f t = k t * 2 ^ q) :
    ((∑ t ∈ Finset.range n, k t : ℤ) : ℝ) * 2 ^ q = ∑ t ∈ Finset.range n, f t := by
  push_cast
  rw [Finset.sum_mul]
  exact Finset.sum_congr rfl fun t ht => (h t (Finset.mem_range.1 ht)).symm

omit [Libm] in
/-- `|k 2^q|` is far from the largest double if `q ≤ 900` -/
theorem fixed_small {k q : ℤ} (hk : |k| ≤ 2 ^ 53) (hq : q ≤ 900) : |(k:ℝ) * 2 ^ q| ≤ 2 ^ 953 := by
  rw [abs_mul, abs_of_pos (by positivity : (0:ℝ) < 2 ^ q), ← Int.cast_abs]
  have h1 : ((|k| : ℤ) : ℝ) ≤ 2 ^ 53 := by exact_mod_cast hk
  have h2 : (2:ℝ) ^ q ≤ 2 ^ (900:ℤ) := zpow_le_zpow_right₀ (by norm_num) hq
  rw [zpow_ofNat] at h2
  calc ((|k| : ℤ) : ℝ) * 2 ^ q ≤ 2 ^ 53 * 2 ^ 900 := mul_le_mul h1 h2 (by positivity) (by positivity)
    _ = 2 ^ 953 := by rw [← pow_add]

/-! ### relative error of a sum -/

theorem tree_rel {v : ℕ → Xmm (Rounded rnd64)} {j : Fin 2} {c : ℕ} {A : Multiset ℕ} {z : Xmm (Rounded rnd64)}
    (h : SumOf pairAdd v c A z) (hv : ∀ t ∈ A, rnd64 (v t j).val = (v t j).val) :
    (∃ m : ℤ, (z j).val = m * 2 ^ (-1074:ℤ)) ∧
      |(z j).val - (A.map fun t => (v t j).val).sum| ≤ ((1 + 1 / 2 ^ 53) ^ c - 1) * (A.map fun t => |(v t j).val|).sum ∧
      |(A.map fun t => (v t j).val).sum| ≤ (A.map fun t => |(v t j).val|).sum := by
  have mult : ∀ x, ∃ m : ℤ, rnd64 x = m * 2 ^ (-1074:ℤ) := fun x => by
    obtain ⟨k, e, -, he, hx⟩ := rnd64_form x
    obtain ⟨l, hl⟩ : ∃ l : ℕ, e = l + -1074 := ⟨(e + 1074).toNat, by omega⟩
    refine ⟨k * 2 ^ l, ?_⟩
    rw [hx, hl, zpow_add₀ (by norm_num), zpow_natCast]
    push_cast
    ring
  induction h with
  | elem t =>
    refine ⟨?_, by simp, by simp⟩
    rw [← hv t (by simp)]
    exact mult _
  | @add c d A B a b _ _ iha ihb =>
    obtain ⟨⟨m, hm⟩, ea, sa⟩ := iha (fun t ht => hv t (by simp [ht]))
    obtain ⟨⟨l, hl⟩, eb, sb⟩ := ihb (fun t ht => hv t (by simp [ht]))
    have e : (pairAdd a b j).val = rnd64 ((a j).val + (b j).val) := by
      match j with
      | 0 => rfl
      | 1 => rfl
    rw [e, Multiset.map_add, Multiset.sum_add, Multiset.map_add, Multiset.sum_add]
    have r := rnd64_mult (x := (a j).val + (b j).val) ⟨m + l, by rw [hm, hl]; push_cast; ring⟩
    have pa : 0 ≤ (A.map fun t => |(v t j).val|).sum := (abs_nonneg _).trans sa
    have pb : 0 ≤ (B.map fun t => |(v t j).val|).sum := (abs_nonneg _).trans sb
    refine ⟨mult _, ?_, (abs_add_le _ _).trans (add_le_add sa sb)⟩
    generalize (A.map fun t => (v t j).val).sum = SA at *
    generalize (B.map fun t => (v t j).val).sum = SB at *
    generalize (A.map fun t => |(v t j).val|).sum = TA at *
    generalize (B.map fun t => |(v t j).val|).sum = TB at *
    generalize (a j).val = x at *
    generalize (b j).val = y at *
    have hu : (0:ℝ) ≤ 1 / 2 ^ 53 := by positivity
    generalize (1:ℝ) / 2 ^ 53 = u at *
    have g1 : (1 + u) ^ c ≤ (1 + u) ^ max c d := pow_le_pow_right₀ (by linarith) (le_max_left _ _)
    have g2 : (1 + u) ^ d ≤ (1 + u) ^ max c d := pow_le_pow_right₀ (by linarith) (le_max_right _ _)
    rw [pow_succ]
    generalize (1 + u) ^ max c d = g at *
    have ea' : |x - SA| ≤ (g - 1) * TA := ea.trans (mul_le_mul_of_nonneg_right (by linarith) pa)
    have eb' : |y - SB| ≤ (g - 1) * TB := eb.trans (mul_le_mul_of_nonneg_right (by linarith) pb)
    have t1 : |rnd64 (x + y) - (SA + SB)| ≤ |rnd64 (x + y) - (x + y)| + (|x - SA| + |y - SB|) := by
      rw [show rnd64 (x + y) - (SA + SB) = rnd64 (x + y) - (x + y) + ((x - SA) + (y - SB)) by ring]
      exact (abs_add_le _ _).trans (add_le_add le_rfl (abs_add_le _ _))
    have t2 : |x + y| ≤ (|x - SA| + |y - SB|) + (|SA| + |SB|) := by
      rw [show x + y = ((x - SA) + (y - SB)) + (SA + SB) by ring]
      exact (abs_add_le _ _).trans (add_le_add (abs_add_le _ _) (abs_add_le _ _))
    have t3 : u * |x + y| ≤ u * (((g - 1) * TA + (g - 1) * TB) + (TA + TB)) :=
      mul_le_mul_of_nonneg_left (t2.trans (by linarith)) hu
    nlinarith [t1, t3, r, ea', eb']

omit [Libm] in
theorem msum_range_real (f : ℕ → ℝ) (n : ℕ) : ((Multiset.range n).map f).sum = ∑ t ∈ Finset.range n, f t := rfl

end

/-! ### C84 -/

section
variable {ρ : ℝ → ℝ} {n : ℕ}

/-- C84: element 0 of the transform that does not normalise is computed from the `n` input elements by additions only, each element
being used once and going through at most `addDepth n` additions: by the forward transform for every length, by the inverse one for the lengths without prime factors above 5. -/
theorem C84_sum (hρ : KeepsDoubles ρ) (i : Target) (thr : Thr) (hn : ValidLen n) {w : World (Xmm (Rounded ρ))} {x : Ptr}
    {v : ℕ → Xmm (Rounded ρ)} (hx : UserArray w x n v) (hv : ∀ t < n, ∀ j, ρ (v t j).val = (v t j).val) (e : Entry)
    (he : e = .fwd0 ∨ (e = .inv ∨ e = .inv0) ∧ ∀ p, p.Prime → p ∣ n → p ≤ 5) :
    letI := i.arith (Rounded ρ)
    ∃ out : ℕ → Xmm (Rounded ρ), Computes (complexFFT (Xmm (Rounded ρ)) thr) n [(e, x)] w x n out ∧
      ∃ c ≤ addDepth n, SumOf pairAdd v c (Multiset.range n) (out 0) := by
  letI := i.arith (Rounded ρ)
  refine ⟨_, ⟨FFT.calls (es := [e]) hn hx, FFT.lifetime_noFail _ (by have := hn.two; omega) _ (lenNat_calls _)⟩, ?_⟩
  have hm : e.mode = .scale_1 ∧ (e.isInv = true → ∀ p, p.Prime → p ∣ n → p ≤ 5) := by
    rcases he with rfl | ⟨rfl | rfl, h⟩
    · exact ⟨rfl, fun h => by cases h⟩
    · exact ⟨rfl, fun _ => h⟩
    · exact ⟨rfl, fun _ => h⟩
  show ∃ c ≤ addDepth n, SumOf pairAdd v c (Multiset.range n) (fftOut (Xmm (Rounded ρ)) thr e.isInv e.mode n v 0)
  rw [hm.1]
  exact (out_tree hρ i thr hn.two (fun t ht => ⟨hv t ht 0, hv t ht 1⟩) hm.2).1

end

section
variable {n : ℕ} {q : ℤ}

/-- C84: fixed point numbers, integers times `2^q`, `q ≥ -1074`: if the sum of the absolute values of the integers is at most `2^53`, in
the real parts and in the imaginary parts, element 0 is the exact sum. -/
theorem C84_exact (i : Target) (thr : Thr) (hn : ValidLen n) {w : World (Xmm (Rounded rnd64))} {x : Ptr}
    {v : ℕ → Xmm (Rounded rnd64)} (hx : UserArray w x n v) (hq : -1074 ≤ q) {k : ℕ → Fin 2 → ℤ} (hk : ∀ t < n, ∀ j, (v t j).val = k t j * 2 ^ q)
    (hs : ∀ j, ∑ t ∈ Finset.range n, |k t j| ≤ 2 ^ 53) (e : Entry)
    (he : e = .fwd0 ∨ (e = .inv ∨ e = .inv0) ∧ ∀ p, p.Prime → p ∣ n → p ≤ 5) :
    letI := i.arith (Rounded rnd64)
    ∃ out : ℕ → Xmm (Rounded rnd64), Computes (complexFFT (Xmm (Rounded rnd64)) thr) n [(e, x)] w x n out ∧
      ∀ j, (out 0 j).val = ∑ t ∈ Finset.range n, (v t j).val := by
  letI := i.arith (Rounded rnd64)
  obtain ⟨out, h1, _, -, h2⟩ := C84_sum rnd64_keeps i thr hn hx (fun t ht j => by
    rw [hk t ht j]
    exact rnd64_repr (abs_le_total (k := fun t => k t j) (hs j) ht) hq) e he
  refine ⟨out, h1, fun j => ?_⟩
  rw [tree_exact (k := fun t => k t j) hq h2 (fun t ht => hk t (Multiset.mem_range.1 ht) j) (hs j), msum_range]
  exact total_eq fun t ht => hk t ht j

/-- C84: the same with IEEE doubles, `q ≤ 900`. -/
theorem C84_ieee (i : Target) (thr : Thr) (hn : ValidLen n) {w : World (Xmm Dbl64)} {x : Ptr}
    {v : ℕ → Xmm Dbl64} (hx : UserArray w x n v) (hq : -1074 ≤ q) (hq' : q ≤ 900) {k : ℕ → Fin 2 → ℤ}
    (hk : ∀ t < n, ∀ j, Dbl64.Finite (v t j) ∧ (v t j).val = k t j * 2 ^ q)
    (hs : ∀ j, ∑ t ∈ Finset.range n, |k t j| ≤ 2 ^ 53) (e : Entry)
    (he : e = .fwd0 ∨ (e = .inv ∨ e = .inv0) ∧ ∀ p, p.Prime → p ∣ n → p ≤ 5) :
    letI := i.arith Dbl64
    ∃ out : ℕ → Xmm Dbl64, Computes (complexFFT (Xmm Dbl64) thr) n [(e, x)] w x n out ∧
      ∀ j, Dbl64.Finite (out 0 j) ∧ (out 0 j).val = ∑ t ∈ Finset.range n, (v t j).val := by
  letI := i.arith Dbl64
  letI := i.arith (Rounded rnd64)
  have h0 : 0 < n := by have := hn.two; omega
  obtain ⟨out, outr, h1, h2, h3⟩ := C82_complex (M := 2 ^ 954) (wr := oneArray n (vals64 v)) (xr := Ptr.base 1) i thr hn hx (oneArray_ok n _)
    (by
      have : (n:ℝ) ≤ 2 ^ 31 := by exact_mod_cast hn.int.le
      calc (n:ℝ) * 2 ^ 954 ≤ 2 ^ 31 * 2 ^ 954 := mul_le_mul_of_nonneg_right this (by positivity)
        _ = 2 ^ 985 := by rw [← pow_add]
        _ ≤ 2 ^ 1019 := pow_le_pow_right₀ (by norm_num) (by norm_num))
    (fun t ht => ⟨⟨(hk t ht 0).1, (hk t ht 1).1⟩, le_trans (norm_le_sum _) (by
      have b := fun j => fixed_small (abs_le_total (k := fun t => k t j) (hs j) ht) hq'
      have b0 := b 0
      have b1 := b 1
      rw [← (hk t ht 0).2] at b0
      rw [← (hk t ht 1).2] at b1
      rw [show (2:ℝ) ^ 954 = 2 ^ 953 + 2 ^ 953 by rw [pow_succ]; ring]
      exact add_le_add b0 b1)⟩) e
  obtain ⟨o, h4, h5⟩ := C84_exact i thr hn (oneArray_ok n (vals64 v)) hq (k := k) (fun t ht j => (hk t ht j).2) hs e he
  refine ⟨out, h1, fun j => ⟨(h3 0 h0 j).1, ?_⟩⟩
  rw [(h3 0 h0 j).2, computes_unique (by simp [oneArray]) h2 h4 0 h0]
  exact h5 j

/-- C84: the relative error of element 0. For any doubles, in the real parts and in the imaginary parts, the error is at most
`(1 + 2^-53)^d - 1` times the sum of the absolute values, where `d` is the number of additions that a sample goes through. -/
theorem C84_relative (i : Target) (thr : Thr) (hn : ValidLen n) {w : World (Xmm (Rounded rnd64))} {x : Ptr}
    {v : ℕ → Xmm (Rounded rnd64)} (hx : UserArray w x n v) (hv : ∀ t < n, ∀ j, rnd64 (v t j).val = (v t j).val) (e : Entry)
    (he : e = .fwd0 ∨ (e = .inv ∨ e = .inv0) ∧ ∀ p, p.Prime → p ∣ n → p ≤ 5) :
    letI := i.arith (Rounded rnd64)
    ∃ out : ℕ → Xmm (Rounded rnd64), Computes (complexFFT (Xmm (Rounded rnd64)) thr) n [(e, x)] w x n out ∧
      ∀ j, |(out 0 j).val - ∑ t ∈ Finset.range n, (v t j).val| ≤
        ((1 + 1 / 2 ^ 53) ^ addDepth n - 1) * ∑ t ∈ Finset.range n, |(v t j).val| := by
  letI := i.arith (Rounded rnd64)
  obtain ⟨out, h1, c, hc, h2⟩ := C84_sum rnd64_keeps i thr hn hx hv e he
  refine ⟨out, h1, fun j => ?_⟩
  have h3 := (tree_rel (j := j) h2 fun t ht => hv t (Multiset.mem_range.1 ht) j).2.1
  rw [msum_range_real, msum_range_real] at h3
  refine h3.trans (mul_le_mul_of_nonneg_right (sub_le_sub_right (pow_le_pow_right₀ ?_ hc) 1) (Finset.sum_nonneg fun _ _ => abs_nonneg _))
  exact le_add_of_nonneg_right (by positivity)

/-- C84: … and with IEEE doubles, for finite data of norm at most `M`, `n M ≤ 2^1019`. -/
theorem C84_relative_ieee (i : Target) (thr : Thr) (hn : ValidLen n) {w : World (Xmm Dbl64)} {x : Ptr}
    {v : ℕ → Xmm Dbl64} (hx : UserArray w x n v) {M : ℝ} (hM : n * M ≤ 2 ^ 1019)
    (hv : ∀ t < n, cfin Dbl64.Finite (v t) ∧ ‖cval Ieee.val (v t)‖ ≤ M) (e : Entry)
    (he : e = .fwd0 ∨ (e = .inv ∨ e = .inv0) ∧ ∀ p, p.Prime → p ∣ n → p ≤ 5) :
    letI := i.arith Dbl64
    ∃ out : ℕ → Xmm Dbl64, Computes (complexFFT (Xmm Dbl64) thr) n [(e, x)] w x n out ∧
      ∀ j, Dbl64.Finite (out 0 j) ∧ |(out 0 j).val - ∑ t ∈ Finset.range n, (v t j).val| ≤
        ((1 + 1 / 2 ^ 53) ^ addDepth n - 1) * ∑ t ∈ Finset.range n, |(v t j).val| := by
  letI := i.arith Dbl64
  letI := i.arith (Rounded rnd64)
  have h0 : 0 < n := by have := hn.two; omega
  obtain ⟨out, outr, h1, h2, h3⟩ := C82_complex (wr := oneArray n (vals64 v)) (xr := Ptr.base 1) i thr hn hx (oneArray_ok n _) hM hv e
  obtain ⟨o, h4, h5⟩ := C84_relative i thr hn (oneArray_ok n (vals64 v)) (fun t ht j => by
    match j with
    | 0 => exact Dbl64.Finite.rnd (hv t ht).1.1
    | 1 => exact Dbl64.Finite.rnd (hv t ht).1.2) e he
  refine ⟨out, h1, fun j => ⟨(h3 0 h0 j).1, ?_⟩⟩
  rw [(h3 0 h0 j).2, computes_unique (by simp [oneArray]) h2 h4 0 h0]
  exact h5 j

end

/-! ### C85: real and cosine transforms -/

section
variable {n : ℕ} {q : ℤ}

omit [Libm] in
theorem even_odd (f : ℕ → ℤ) (m : ℕ) : ∑ t ∈ Finset.range (2 * m), f t = ∑ t ∈ Finset.range m, f (2 * t) + ∑ t ∈ Finset.range m, f (2 * t + 1) := by
  induction m with
  | zero => simp
  | succ m ih =>
    rw [show 2 * (m + 1) = 2 * m + 1 + 1 by ring, Finset.sum_range_succ, Finset.sum_range_succ, ih, Finset.sum_range_succ, Finset.sum_range_succ]
    ring

theorem rfft_sums (i : Target) (thr : Thr) {m : ℕ} (hm : 2 ≤ m) {d : ℕ → Rounded rnd64} (hq : -1074 ≤ q) {k : ℕ → ℤ}
    (hk : ∀ t < 2 * m, (d t).val = k t * 2 ^ q) (hs : ∑ t ∈ Finset.range (2 * m), |k t| ≤ 2 ^ 53) :
    letI := i.arith (Rounded rnd64)
    rfftOut (Xmm (Rounded rnd64)) thr .fwd0 (2 * m) (doubles d) 0 = ![⟨(∑ t ∈ Finset.range (2 * m), k t : ℤ) * 2 ^ q⟩, fofNat 0] ∧
    rfftOut (Xmm (Rounded rnd64)) thr .fwd0 (2 * m) (doubles d) m = ![⟨(∑ t ∈ Finset.range (2 * m), (-1) ^ t * k t : ℤ) * 2 ^ q⟩, fofNat 0] := by
  letI := i.arith (Rounded rnd64)
  have hs' := hs
  rw [even_odd] at hs'
  have p0 : 0 ≤ ∑ t ∈ Finset.range m, |k (2 * t)| := Finset.sum_nonneg fun _ _ => abs_nonneg _
  have p1 : 0 ≤ ∑ t ∈ Finset.range m, |k (2 * t + 1)| := Finset.sum_nonneg fun _ _ => abs_nonneg _
  have rep : ∀ t < 2 * m, rnd64 (d t).val = (d t).val := fun t ht => by
    rw [hk t ht]
    exact rnd64_repr (abs_le_total hs ht) hq
  obtain ⟨_, -, tree⟩ := (out_tree rnd64_keeps i thr hm (v := rfftZin (Xmm (Rounded rnd64)) (doubles d)) (inv := false)
    (fun t ht => ⟨rep (2 * t) (by omega), rep (2 * t + 1) (by omega)⟩) (fun h => by cases h)).1
  have t0 := tree_exact (j := 0) (k := fun t => k (2 * t)) hq tree (fun t ht => hk (2 * t) (by have := Multiset.mem_range.1 ht; omega))
    (show ∑ t ∈ Finset.range m, |k (2 * t)| ≤ _ by omega)
  have t1 := tree_exact (j := 1) (k := fun t => k (2 * t + 1)) hq tree (fun t ht => hk (2 * t + 1) (by have := Multiset.mem_range.1 ht; omega))
    (show ∑ t ∈ Finset.range m, |k (2 * t + 1)| ≤ _ by omega)
  rw [msum_range] at t0 t1
  have b0 := Finset.abs_sum_le_sum_abs (fun t => k (2 * t)) (Finset.range m)
  have b1 := Finset.abs_sum_le_sum_abs (fun t => k (2 * t + 1)) (Finset.range m)
  have key : ∀ t, rfftOut (Xmm (Rounded rnd64)) thr .fwd0 (2 * m) (doubles d) t =
      rfftPostOut (Xmm (Rounded rnd64)) .scale_1 m (rfftTab (Xmm (Rounded rnd64)) (2 * m))
        (fftOut (Xmm (Rounded rnd64)) thr false .scale_1 m (rfftZin (Xmm (Rounded rnd64)) (doubles d))) t := fun t => by
    rw [rfftOut, if_neg (by omega)]
    show rfftPostOut (Xmm (Rounded rnd64)) .scale_1 (2 * m / 2) (rfftTab (Xmm (Rounded rnd64)) (2 * (2 * m / 2)))
      (fftOut (Xmm (Rounded rnd64)) thr false .scale_1 (2 * m / 2) (rfftZin (Xmm (Rounded rnd64)) (doubles d))) t = _
    rw [show 2 * m / 2 = m by omega]
  generalize fftOut (Xmm (Rounded rnd64)) thr false .scale_1 m (rfftZin (Xmm (Rounded rnd64)) (doubles d)) = W at key t0 t1
  generalize rfftTab (Xmm (Rounded rnd64)) (2 * m) = U at key
  rw [key, key]
  unfold rfftPostOut
  constructor
  · rw [if_pos rfl]
    refine ext2 (rounded_ext (show rnd64 ((W 0 0).val + (W 0 1).val) = _ from ?_)) rfl
    rw [t0, t1, ← add_mul, ← Int.cast_add, even_odd k m]
    refine rnd64_repr (le_trans (abs_add_le _ _) ?_) hq
    omega
  · rw [if_neg (by omega), if_neg (by omega), if_pos rfl]
    refine ext2 (rounded_ext (show rnd64 ((W 0 0).val - (W 0 1).val) = _ from ?_)) rfl
    have alt : ∑ t ∈ Finset.range (2 * m), (-1) ^ t * k t = ∑ t ∈ Finset.range m, k (2 * t) - ∑ t ∈ Finset.range m, k (2 * t + 1) := by
      rw [even_odd (fun t => (-1) ^ t * k t), sub_eq_add_neg, ← Finset.sum_neg_distrib]
      congr 1 <;> refine Finset.sum_congr rfl fun t _ => ?_
      · rw [pow_mul]; norm_num
      · rw [pow_succ, pow_mul]; norm_num
    rw [t0, t1, ← sub_mul, ← Int.cast_sub, alt]
    refine rnd64_repr (le_trans (abs_sub _ _) ?_) hq
    omega

/-- C85: real data, integers times `2^q` with the sum of the absolute values of the integers at most `2^53`: element 0 of the spectrum
is the exact sum, element `n/2` the exact alternating sum. -/
theorem C85_real (i : Target) (thr : Thr) (hn : RealLen n) {w : World (Xmm (Rounded rnd64))} {x y : Ptr} {d : ℕ → Rounded rnd64}
    (hw : w.WF) (hx : Arr w.heap x n (doubles d)) (hy : Alloc w.heap y n) (hxy : Sep x n y n) (hq : -1074 ≤ q) {k : ℕ → ℤ}
    (hk : ∀ t < n, (d t).val = k t * 2 ^ q) (hs : ∑ t ∈ Finset.range n, |k t| ≤ 2 ^ 53) :
    letI := i.arith (Rounded rnd64)
    ∃ out : ℕ → Xmm (Rounded rnd64), Computes (realFFT (Xmm (Rounded rnd64)) thr) n [(.fwd0, x, y)] w y n out ∧
      (out 0 0).val = ∑ t ∈ Finset.range n, (d t).val ∧ (out 0 1).val = 0 ∧
      ∀ m, n = 2 * m → (out m 0).val = ∑ t ∈ Finset.range n, (-1) ^ t * (d t).val ∧ (out m 1).val = 0 := by
  letI := i.arith (Rounded rnd64)
  have a : RealArgs w .fwd0 n x y (doubles d) := ⟨hw, hn, hx, hx.alloc, hy, hxy⟩
  refine ⟨_, ComputesIn.toComputes (RFFT.computes (thr := thr) a) (le_refl _) (fun _ _ => rfl), ?_⟩
  rcases hn with rfl | ⟨m, rfl, hm, -⟩
  · rw [rfftOut, if_pos rfl]
    refine ⟨by rw [Finset.sum_range_one]; rfl, Nat.cast_zero, fun m h => by omega⟩
  obtain ⟨e0, e1⟩ := rfft_sums i thr hm.two hq hk hs
  refine ⟨?_, ?_, ?_⟩
  · rw [e0]
    exact total_eq hk
  · rw [e0]
    exact Nat.cast_zero
  · intro m' h
    obtain rfl : m' = m := by omega
    rw [e1]
    refine ⟨?_, Nat.cast_zero⟩
    show ((∑ t ∈ Finset.range (2 * m'), (-1) ^ t * k t : ℤ) : ℝ) * 2 ^ q = _
    refine total_eq fun t ht => ?_
    rw [hk t ht]
    push_cast
    ring

/-- C85: … with IEEE doubles, `q ≤ 900`. -/
theorem C85_real_ieee (i : Target) (thr : Thr) (hn : RealLen n) {w : World (Xmm Dbl64)} {x y : Ptr} {d : ℕ → Dbl64}
    (hw : w.WF) (hx : Arr w.heap x n (doubles d)) (hy : Alloc w.heap y n) (hxy : Sep x n y n) (hq : -1074 ≤ q) (hq' : q ≤ 900) {k : ℕ → ℤ}
    (hk : ∀ t < n, Dbl64.Finite (d t) ∧ (d t).val = k t * 2 ^ q) (hs : ∑ t ∈ Finset.range n, |k t| ≤ 2 ^ 53) :
    letI := i.arith Dbl64
    ∃ out : ℕ → Xmm Dbl64, Computes (realFFT (Xmm Dbl64) thr) n [(.fwd0, x, y)] w y n out ∧
      (out 0 0).val = ∑ t ∈ Finset.range n, (d t).val ∧ (out 0 1).val = 0 ∧
      ∀ m, n = 2 * m → (out m 0).val = ∑ t ∈ Finset.range n, (-1) ^ t * (d t).val ∧ (out m 1).val = 0 := by
  letI := i.arith Dbl64
  letI := i.arith (Rounded rnd64)
  have h0 := hn.pos
  have ok := twoArrays_ok (C := Xmm (Rounded rnd64)) n (doubles fun t => ⟨(d t).val⟩)
  obtain ⟨out, outr, h1, h2, h3⟩ := C82_real_forward (M := 2 ^ 953) i thr hn hw hx hy hxy ok.wf ok.arr (twoArrays_alloc _ _) (twoArrays_sep _)
    (by
      have : (n:ℝ) ≤ 2 ^ 31 := by exact_mod_cast RealLen.le31 hn
      calc (n:ℝ) * 2 ^ 953 ≤ 2 ^ 31 * 2 ^ 953 := mul_le_mul_of_nonneg_right this (by positivity)
        _ = 2 ^ 984 := by rw [← pow_add]
        _ ≤ 2 ^ 1016 := pow_le_pow_right₀ (by norm_num) (by norm_num))
    (fun t ht => ⟨(hk t ht).1, by rw [(hk t ht).2]; exact fixed_small (abs_le_total hs ht) hq'⟩) .fwd0 (by simp)
  obtain ⟨o, h4, h5, h6, h7⟩ := C85_real i thr hn ok.wf ok.arr (twoArrays_alloc _ _) (twoArrays_sep _) hq (k := k) (fun t ht => (hk t ht).2) hs
  have eq := fun t (ht : t < n) j => (h3 t ht j).2.trans (by rw [computes_unique (by simp [twoArrays]) h2 h4 t ht] : _ = (o t j).val)
  refine ⟨out, h1, (eq 0 h0 0).trans h5, (eq 0 h0 1).trans h6, fun m hm => ?_⟩
  exact ⟨(eq m (by omega) 0).trans (h7 m hm).1, (eq m (by omega) 1).trans (h7 m hm).2⟩

omit [Libm] in
/-- the reordering of the cosine transform permutes the input -/
theorem gath_sum (f : ℕ → ℤ) (m : ℕ) : ∑ p ∈ Finset.range (2 * m), f (if p < m then 2 * p else 2 * (2 * m - 1 - p) + 1) = ∑ t ∈ Finset.range (2 * m), f t := by
  rw [even_odd f m, show 2 * m = m + m by ring, Finset.sum_range_add]
  congr 1
  · refine Finset.sum_congr rfl fun p hp => ?_
    rw [if_pos (Finset.mem_range.1 hp)]
  · rw [← Finset.sum_range_reflect]
    refine Finset.sum_congr rfl fun p hp => ?_
    have := Finset.mem_range.1 hp
    rw [if_neg (by omega)]
    congr 2
    omega

/-- C85: the cosine transform of such data: element 0 is the exact sum. -/
theorem C85_dct (i : Target) (thr : Thr) (hn : RealLen n) (h30 : n < 2 ^ 30) {w : World (Xmm (Rounded rnd64))} {x : Ptr} {d : ℕ → Rounded rnd64}
    (hx : UserArray w x n (doubles d)) (hq : -1074 ≤ q) {k : ℕ → ℤ} (hk : ∀ t < n, (d t).val = k t * 2 ^ q)
    (hs : ∑ t ∈ Finset.range n, |k t| ≤ 2 ^ 53) :
    letI := i.arith (Rounded rnd64)
    ∃ out : ℕ → Rounded rnd64, Computes (realDCT (Xmm (Rounded rnd64)) thr) n [(.fwd0, x)] w x n (doubles out) ∧
      (out 0).val = ∑ t ∈ Finset.range n, (d t).val := by
  letI := i.arith (Rounded rnd64)
  have Z := rounded_zeroOne rnd64_keeps
  have c := fun t => (dct_cell (F := Rounded rnd64) i thr .fwd0 n (v := doubles d) (t := t) ⟨_, rfl⟩).1
  refine ⟨fun t => dctOut (Xmm (Rounded rnd64)) thr .fwd0 n (doubles d) t 0,
    ComputesIn.toComputes (DCT.computes (thr := thr) hx.wf hn h30 hx.arr [.fwd0]) (Set.empty_subset _) (fun t _ => (c t).symm), ?_⟩
  beta_reduce
  rcases hn with rfl | ⟨m, rfl, hm, -⟩
  · rw [dctOut, if_pos rfl, Finset.sum_range_one]
    rfl
  have h2 := hm.two
  have hg : dctGath (2 * m / 2) (doubles d) = doubles (dctGath' m d) := by
    funext q
    rw [show 2 * m / 2 = m by omega]
    show (if q < m then ![d (2 * q), fofNat 0] else ![d (2 * (2 * m - 1 - q) + 1), fofNat 0]) =
      (![if q < m then d (2 * q) else d (2 * (2 * m - 1 - q) + 1), fofNat 0] : Xmm (Rounded rnd64))
    split <;> rfl
  rw [dctOut, if_neg (by omega)]
  show (dctTw (Xmm (Rounded rnd64)) (dctTab (Xmm (Rounded rnd64)) (2 * m))
    (rfftOut (Xmm (Rounded rnd64)) thr .fwd0 (2 * m) (dctGath (2 * m / 2) (doubles d))) 0 0).val = _
  rw [hg, dctTw_eq i, (rfft_sums i thr h2 hq (k := fun p => k (if p < m then 2 * p else 2 * (2 * m - 1 - p) + 1)) (fun t ht => by
    unfold dctGath'
    beta_reduce
    split
    · exact hk _ (by omega)
    · exact hk _ (by omega)) (by rw [gath_sum fun t => |k t|]; exact hs)).1, gath_sum, dctTab_zero rnd64_keeps i (by omega)]
  show (fadd (fmul (fofNat 1) (⟨_⟩ : Rounded rnd64)) (fmul (fofNat 0) (fofNat 0))).val = _
  have hr : rnd64 (((∑ t ∈ Finset.range (2 * m), k t : ℤ) : ℝ) * 2 ^ q) = ((∑ t ∈ Finset.range (2 * m), k t : ℤ) : ℝ) * 2 ^ q :=
    rnd64_repr (le_trans (Finset.abs_sum_le_sum_abs _ _) hs) hq
  rw [← total_eq hk]
  generalize ((∑ t ∈ Finset.range (2 * m), k t : ℤ) : ℝ) * 2 ^ q = s at hr
  have hr : rnd64 (⟨s⟩ : Rounded rnd64).val = (⟨s⟩ : Rounded rnd64).val := hr
  rw [Z.mulZ, Z.oMul hr, Z.addZ hr]

/-- C85: … with IEEE doubles, `q ≤ 900`. -/
theorem C85_dct_ieee (i : Target) (thr : Thr) (hn : RealLen n) (h30 : n < 2 ^ 30) {w : World (Xmm Dbl64)} {x : Ptr} {d : ℕ → Dbl64}
    (hx : UserArray w x n (doubles d)) (hq : -1074 ≤ q) (hq' : q ≤ 900) {k : ℕ → ℤ} (hk : ∀ t < n, Dbl64.Finite (d t) ∧ (d t).val = k t * 2 ^ q)
    (hs : ∑ t ∈ Finset.range n, |k t| ≤ 2 ^ 53) :
    letI := i.arith Dbl64
    ∃ out : ℕ → Dbl64, Computes (realDCT (Xmm Dbl64) thr) n [(.fwd0, x)] w x n (doubles out) ∧
      Dbl64.Finite (out 0) ∧ (out 0).val = ∑ t ∈ Finset.range n, (d t).val := by
  letI := i.arith Dbl64
  letI := i.arith (Rounded rnd64)
  have ok := oneArray_ok (C := Xmm (Rounded rnd64)) n (doubles fun t => ⟨(d t).val⟩)
  obtain ⟨out, outr, g1, g2, g3⟩ := C82_dct (M := 2 ^ 953) i thr hn h30 hx ok
    (by
      have : (n:ℝ) ≤ 2 ^ 31 := by exact_mod_cast RealLen.le31 hn
      calc (n:ℝ) * 2 ^ 953 ≤ 2 ^ 31 * 2 ^ 953 := mul_le_mul_of_nonneg_right this (by positivity)
        _ = 2 ^ 984 := by rw [← pow_add]
        _ ≤ 2 ^ 1016 := pow_le_pow_right₀ (by norm_num) (by norm_num))
    (fun t ht => ⟨(hk t ht).1, by rw [(hk t ht).2]; exact fixed_small (abs_le_total hs ht) hq'⟩) .fwd0
  obtain ⟨o, g4, g5⟩ := C85_dct i thr hn h30 ok hq (k := k) (fun t ht => (hk t ht).2) hs
  refine ⟨out, g1, (g3 0 hn.pos).1, ?_⟩
  have := congrFun (computes_unique (by simp [oneArray]) g2 g4 0 hn.pos) 0
  rw [(g3 0 hn.pos).2, show outr 0 = doubles outr 0 0 from rfl, this]
  exact g5

end

/-! ### the hypotheses are met -/

omit [Libm] in
theorem int_cell (a b : ℤ) (s : Bool) (j : Fin 2) (ha : |a| < 2 ^ 53) (hb : |b| < 2 ^ 53) :
    Dbl64.Finite ((![⟨.num a s⟩, ⟨.num b s⟩] : Xmm Dbl64) j) ∧ ((![⟨.num a s⟩, ⟨.num b s⟩] : Xmm Dbl64) j).val = (![a, b] j : ℤ) * 2 ^ (0:ℤ) := by
  match j with
  | 0 => exact ⟨finite_int ha s, (show ((a:ℤ):ℝ) = (a:ℝ) * 2 ^ (0:ℤ) by simp)⟩
  | 1 => exact ⟨finite_int hb s, (show ((b:ℤ):ℝ) = (b:ℝ) * 2 ^ (0:ℤ) by simp)⟩

/-- length 30, the samples `t - 2i`: the inverse transform begins with `435 - 60i` -/
example (thr : Thr) : letI := avxBuild.arith Dbl64
    ∃ out : ℕ → Xmm Dbl64, Computes (complexFFT (Xmm Dbl64) thr) 30 [(.inv, Ptr.base 1)]
      (oneArray 30 fun t => ![⟨.num ((t : ℤ) : ℝ) false⟩, ⟨.num (-2:ℤ) false⟩]) (Ptr.base 1) 30 out ∧ (out 0 0).val = 435 ∧ (out 0 1).val = -60 := by
  obtain ⟨out, h, a⟩ := C84_ieee avxBuild thr (n := 30) (q := 0) (validLen_of_le (by omega) (by omega))
    (oneArray_ok 30 fun t => (![⟨.num ((t : ℤ) : ℝ) false⟩, ⟨.num (-2:ℤ) false⟩] : Xmm Dbl64)) (by norm_num) (by norm_num)
    (k := fun t => ![(t : ℤ), -2]) (fun t ht j => int_cell _ _ _ _ (by rw [abs_of_nonneg (by omega)]; omega) (by norm_num))
    (fun j => by
      match j with
      | 0 => decide
      | 1 => decide) .inv
    (.inr ⟨.inl rfl, fun p hp hd => by
      rcases (by simpa using (Nat.Prime.dvd_mul hp).1 (show p ∣ 6 * 5 from hd) : p ∣ 6 ∨ p ∣ 5) with h | h
      · have := Nat.le_of_dvd (by norm_num) h
        rcases (Nat.Prime.dvd_mul hp).1 (show p ∣ 2 * 3 from h) with h | h
        · have := Nat.le_of_dvd (by norm_num) h
          omega
        · have := Nat.le_of_dvd (by norm_num) h
          omega
      · exact Nat.le_of_dvd (by norm_num) h⟩)
  refine ⟨out, h, (a 0).2.trans ?_, (a 1).2.trans ?_⟩
  · show ∑ t ∈ Finset.range 30, ((t : ℤ) : ℝ) = 435
    simp [Finset.sum_range_succ]
    norm_num
  · show ∑ t ∈ Finset.range 30, ((-2 : ℤ) : ℝ) = -60
    norm_num

/-- a sample goes through ten additions in a transform of length 1024, through 7 in one of length 30 -/
example : addDepth (2 ^ 10) = 10 ∧ addDepth 30 = 7 := by
  constructor
  · rw [addDepth, Nat.Prime.primeFactorsList_pow Nat.prime_two]
    rfl
  · rw [show 30 = 2 * (3 * 5) by norm_num, SumLaws.addDepth_mul (by norm_num) (by norm_num), SumLaws.addDepth_mul (by norm_num) (by norm_num),
      SumLaws.addDepth_prime Nat.prime_two, SumLaws.addDepth_prime Nat.prime_three, SumLaws.addDepth_prime Nat.prime_five]

/-- length 1024, doubles of norm at most `2^1000`: ten additions -/
example (thr : Thr) {v : ℕ → Xmm Dbl64} (hv : ∀ t < 1024, cfin Dbl64.Finite (v t) ∧ ‖cval Ieee.val (v t)‖ ≤ 2 ^ 1000) :
    letI := sse2Build.arith Dbl64
    ∃ out : ℕ → Xmm Dbl64, Computes (complexFFT (Xmm Dbl64) thr) 1024 [(.fwd0, Ptr.base 1)] (oneArray 1024 v) (Ptr.base 1) 1024 out ∧
      |(out 0 0).val - ∑ t ∈ Finset.range 1024, (v t 0).val| ≤ ((1 + 1 / 2 ^ 53) ^ 10 - 1) * ∑ t ∈ Finset.range 1024, |(v t 0).val| := by
  obtain ⟨out, h, a⟩ := C84_relative_ieee sse2Build thr (n := 1024) (validLen_of_le (by omega) (by omega)) (oneArray_ok 1024 v) (M := 2 ^ 1000)
    (by
      rw [show (((1024:ℕ)):ℝ) = 2 ^ 10 by norm_num, ← pow_add]
      exact pow_le_pow_right₀ (by norm_num) (by norm_num)) hv .fwd0 (.inl rfl)
  have d : addDepth 1024 = 10 := by
    rw [show 1024 = 2 ^ 10 by norm_num, addDepth, Nat.Prime.primeFactorsList_pow Nat.prime_two]
    rfl
  rw [d] at a
  exact ⟨out, h, (a 0).2⟩

/-- real data of length 16, the squares: 1240, alternating -120 -/
example (thr : Thr) : letI := sse2Build.arith Dbl64
    ∃ out : ℕ → Xmm Dbl64, Computes (realFFT (Xmm Dbl64) thr) 16 [(.fwd0, Ptr.base 1, Ptr.base 2)]
      (twoArrays 16 (doubles fun t => ⟨.num (((t:ℤ) ^ 2 : ℤ) : ℝ) false⟩)) (Ptr.base 2) 16 out ∧ (out 0 0).val = 1240 ∧ (out 8 0).val = -120 := by
  have ok := twoArrays_ok 16 (doubles fun t => (⟨.num (((t:ℤ) ^ 2 : ℤ) : ℝ) false⟩ : Dbl64))
  obtain ⟨out, h, a, -, b⟩ := C85_real_ieee (n := 16) (q := 0) sse2Build thr (realLen_of_le (m := 8) (by omega) (by omega)) ok.wf ok.arr
    (twoArrays_alloc _ _) (twoArrays_sep _) (by norm_num) (by norm_num) (k := fun t => (t:ℤ) ^ 2)
    (fun t ht => ⟨finite_int (by
      rw [abs_of_nonneg (by positivity)]
      have : (t:ℤ) ≤ 15 := by omega
      nlinarith) _, (show (((t:ℤ) ^ 2 : ℤ) : ℝ) = (((t:ℤ) ^ 2 : ℤ) : ℝ) * 2 ^ (0:ℤ) by simp)⟩) (by decide)
  refine ⟨out, h, a.trans ?_, (b 8 (by norm_num)).1.trans ?_⟩
  · show ∑ t ∈ Finset.range 16, (((t:ℤ) ^ 2 : ℤ) : ℝ) = 1240
    simp [Finset.sum_range_succ]
    norm_num
  · show ∑ t ∈ Finset.range 16, (-1) ^ t * (((t:ℤ) ^ 2 : ℤ) : ℝ) = -120
    simp [Finset.sum_range_succ]
    norm_num

/-- the cosine transform of length 12 of 0, 1, 2, …: 66 -/
example (thr : Thr) : letI := avxBuild.arith Dbl64
    ∃ out : ℕ → Dbl64, Computes (realDCT (Xmm Dbl64) thr) 12 [(.fwd0, Ptr.base 1)]
      (oneArray 12 (doubles fun t => ⟨.num ((t:ℤ):ℝ) false⟩)) (Ptr.base 1) 12 (doubles out) ∧ (out 0).val = 66 := by
  obtain ⟨out, h, -, a⟩ := C85_dct_ieee (n := 12) (q := 0) avxBuild thr (realLen_of_le (m := 6) (by omega) (by omega)) (by norm_num)
    (oneArray_ok 12 (doubles fun t => (⟨.num ((t:ℤ):ℝ) false⟩ : Dbl64))) (by norm_num) (by norm_num) (k := fun t => (t:ℤ))
    (fun t ht => ⟨finite_int (by rw [abs_of_nonneg (by positivity)]; omega) _, (show ((t:ℤ):ℝ) = ((t:ℤ):ℝ) * 2 ^ (0:ℤ) by simp)⟩) (by decide)
  refine ⟨out, h, a.trans ?_⟩
  show ∑ t ∈ Finset.range 12, ((t:ℤ):ℝ) = 66
  simp [Finset.sum_range_succ]
  norm_num

end OTFFT.Props
