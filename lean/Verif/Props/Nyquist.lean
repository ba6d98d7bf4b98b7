/-
C90: element n/2 of a transform of length n = 2^l is a plain alternating sum of the input.
-/
import Verif.Proof.Nyquist
import Verif.Props.DC

namespace OTFFT.Props

variable [Libm]

section
variable {ρ : ℝ → ℝ} {n l : ℕ}

omit [Libm] in
theorem part_range (r n : ℕ) : ∑ p ∈ Finset.range n, part r (fun t => ({t} : Multiset ℕ)) p = (Multiset.range n).filter (· % 2 = r) := by
  unfold part
  rw [← Finset.sum_filter, Finset.sum_multiset_singleton]
  rfl

omit [Libm] in
theorem pow2_le5 {p : ℕ} (pp : p.Prime) (hd : p ∣ 2 ^ l) : p ≤ 5 := by
  have := (Nat.prime_dvd_prime_iff_eq pp Nat.prime_two).1 (pp.dvd_of_dvd_pow hd)
  omega

/-- C90: length `n = 2^l`, transforms that do not normalise: element `n/2` is one subtraction applied to two numbers; the first is
computed from the elements with even index by additions only, each element being used once and going through at most `l - 1` additions;
the second in the same way from the elements with odd index. -/
theorem C90_difference (hρ : KeepsDoubles ρ) (i : Target) (thr : Thr) (h1 : 1 ≤ l) (hl : l ≤ 30) {w : World (Xmm (Rounded ρ))} {x : Ptr}
    {v : ℕ → Xmm (Rounded ρ)} (hx : UserArray w x (2 ^ l) v) (hv : ∀ t < 2 ^ l, ∀ j, ρ (v t j).val = (v t j).val) (e : Entry)
    (he : e ∈ [Entry.fwd0, .inv, .inv0]) :
    letI := i.arith (Rounded ρ)
    ∃ out : ℕ → Xmm (Rounded ρ), Computes (complexFFT (Xmm (Rounded ρ)) thr) (2 ^ l) [(e, x)] w x (2 ^ l) out ∧
      ∃ a b, out (2 ^ l / 2) = pairSub a b ∧
        (∃ c ≤ l - 1, SumOf pairAdd v c ((Multiset.range (2 ^ l)).filter (· % 2 = 0)) a) ∧
        (∃ c ≤ l - 1, SumOf pairAdd v c ((Multiset.range (2 ^ l)).filter (· % 2 = 1)) b) := by
  letI := i.arith (Rounded ρ)
  have hn : ValidLen (2 ^ l) := validLen_pow l h1 (by omega)
  refine ⟨_, ⟨FFT.calls (es := [e]) hn hx, FFT.lifetime_noFail _ (by have := hn.two; omega) _ (lenNat_calls _)⟩, ?_⟩
  have hm : e.mode = .scale_1 := by
    simp only [List.mem_cons, List.not_mem_nil, or_false] at he
    rcases he with rfl | rfl | rfl <;> rfl
  show ∃ a b, fftOut (Xmm (Rounded ρ)) thr e.isInv e.mode (2 ^ l) v (2 ^ l / 2) = _ ∧ _
  rw [hm]
  obtain ⟨a, b, hab, ha, hb⟩ := (sumLaws hρ i v).fft_diff (S := fun t => {t}) (thr := thr) (inv := e.isInv) (flatLaws (rounded_zeroOne hρ) i) (n := 2 ^ l) rfl h1
    (c := 0) (fun t ht => ⟨⟨0, le_refl _, .elem t⟩, hv t ht 0, hv t ht 1⟩)
  rw [part_range, Nat.zero_add] at ha hb
  exact ⟨a, b, hab.trans (subpz_arith i a b), ha.1, hb.1⟩

end

section
variable {l : ℕ} {q : ℤ}

omit [Libm] in
/-- splitting a sum over `0, …, n - 1` by parity -/
theorem parity_sum {M : Type} [AddCommMonoid M] (f : ℕ → M) (n : ℕ) :
    (((Multiset.range n).filter (· % 2 = 0)).map f).sum + (((Multiset.range n).filter (· % 2 = 1)).map f).sum = ∑ t ∈ Finset.range n, f t := by
  have h := Multiset.filter_add_not (· % 2 = 0) (Multiset.range n)
  rw [← Multiset.sum_add, ← Multiset.map_add]
  rw [show (Multiset.range n).filter (· % 2 = 1) = (Multiset.range n).filter (fun t => ¬ t % 2 = 0) by congr 1; funext t; simp, h]
  rfl

omit [Libm] in
theorem parity_diff {R : Type} [CommRing R] (f : ℕ → R) (n : ℕ) :
    (((Multiset.range n).filter (· % 2 = 0)).map f).sum - (((Multiset.range n).filter (· % 2 = 1)).map f).sum = ∑ t ∈ Finset.range n, (-1) ^ t * f t := by
  rw [← parity_sum fun t => (-1) ^ t * f t, sub_eq_add_neg, ← Multiset.sum_map_neg', Multiset.map_map]
  congr 1 <;> congr 1 <;> refine Multiset.map_congr rfl fun t ht => ?_ <;> have h := (Multiset.mem_filter.1 ht).2
  · rw [Even.neg_one_pow (Nat.even_iff.2 h), one_mul]
  · rw [Odd.neg_one_pow (Nat.odd_iff.2 h), neg_one_mul]
    rfl

/-- C90: fixed point numbers, integers times `2^q`, `q ≥ -1074`: if the sum of the absolute values of the integers is at most `2^53`, in
the real parts and in the imaginary parts, element `n/2` is the exact alternating sum. -/
theorem C90_exact (i : Target) (thr : Thr) (h1 : 1 ≤ l) (hl : l ≤ 30) {w : World (Xmm (Rounded rnd64))} {x : Ptr}
    {v : ℕ → Xmm (Rounded rnd64)} (hx : UserArray w x (2 ^ l) v) (hq : -1074 ≤ q) {k : ℕ → Fin 2 → ℤ}
    (hk : ∀ t < 2 ^ l, ∀ j, (v t j).val = k t j * 2 ^ q)
    (hs : ∀ j, ∑ t ∈ Finset.range (2 ^ l), |k t j| ≤ 2 ^ 53) (e : Entry) (he : e ∈ [Entry.fwd0, .inv, .inv0]) :
    letI := i.arith (Rounded rnd64)
    ∃ out : ℕ → Xmm (Rounded rnd64), Computes (complexFFT (Xmm (Rounded rnd64)) thr) (2 ^ l) [(e, x)] w x (2 ^ l) out ∧
      ∀ j, (out (2 ^ l / 2) j).val = ∑ t ∈ Finset.range (2 ^ l), (-1) ^ t * (v t j).val := by
  letI := i.arith (Rounded rnd64)
  obtain ⟨out, h1, a, b, hab, ⟨_, -, ha⟩, ⟨_, -, hb⟩⟩ := C90_difference rnd64_keeps i thr h1 hl hx (fun t ht j => by
    rw [hk t ht j]
    exact rnd64_repr (abs_le_total (k := fun t => k t j) (hs j) ht) hq) e he
  refine ⟨out, h1, fun j => ?_⟩
  have mem : ∀ r t, t ∈ (Multiset.range (2 ^ l)).filter (· % 2 = r) → t < 2 ^ l := fun r t ht => Multiset.mem_range.1 (Multiset.mem_filter.1 ht).1
  have hs' := hs j
  rw [← parity_sum] at hs'
  have pa : 0 ≤ (((Multiset.range (2 ^ l)).filter (· % 2 = 0)).map fun t => |k t j|).sum := Multiset.sum_nonneg fun x hx => by
    obtain ⟨t, -, rfl⟩ := Multiset.mem_map.1 hx
    exact abs_nonneg _
  have pb : 0 ≤ (((Multiset.range (2 ^ l)).filter (· % 2 = 1)).map fun t => |k t j|).sum := Multiset.sum_nonneg fun x hx => by
    obtain ⟨t, -, rfl⟩ := Multiset.mem_map.1 hx
    exact abs_nonneg _
  have ea := tree_exact (k := fun t => k t j) hq ha (fun t ht => hk t (mem _ _ ht) j) (by omega)
  have eb := tree_exact (k := fun t => k t j) hq hb (fun t ht => hk t (mem _ _ ht) j) (by omega)
  have e : (out (2 ^ l / 2) j).val = rnd64 ((a j).val - (b j).val) := by
    rw [hab]
    match j with
    | 0 => rfl
    | 1 => rfl
  have b1 := abs_msum (fun t => k t j) ((Multiset.range (2 ^ l)).filter (· % 2 = 0))
  have b2 := abs_msum (fun t => k t j) ((Multiset.range (2 ^ l)).filter (· % 2 = 1))
  rw [e, ea, eb, ← sub_mul, ← Int.cast_sub, rnd64_repr ((abs_sub _ _).trans (by omega)) hq, parity_diff]
  refine total_eq fun t ht => ?_
  rw [hk t ht]
  push_cast
  ring

/-- C90: the same with IEEE doubles, `q ≤ 900`. -/
theorem C90_ieee (i : Target) (thr : Thr) (h1 : 1 ≤ l) (hl : l ≤ 30) {w : World (Xmm Dbl64)} {x : Ptr}
    {v : ℕ → Xmm Dbl64} (hx : UserArray w x (2 ^ l) v) (hq : -1074 ≤ q) (hq' : q ≤ 900) {k : ℕ → Fin 2 → ℤ}
    (hk : ∀ t < 2 ^ l, ∀ j, Dbl64.Finite (v t j) ∧ (v t j).val = k t j * 2 ^ q)
    (hs : ∀ j, ∑ t ∈ Finset.range (2 ^ l), |k t j| ≤ 2 ^ 53) (e : Entry) (he : e ∈ [Entry.fwd0, .inv, .inv0]) :
    letI := i.arith Dbl64
    ∃ out : ℕ → Xmm Dbl64, Computes (complexFFT (Xmm Dbl64) thr) (2 ^ l) [(e, x)] w x (2 ^ l) out ∧
      ∀ j, Dbl64.Finite (out (2 ^ l / 2) j) ∧ (out (2 ^ l / 2) j).val = ∑ t ∈ Finset.range (2 ^ l), (-1) ^ t * (v t j).val := by
  letI := i.arith Dbl64
  letI := i.arith (Rounded rnd64)
  have hn : ValidLen (2 ^ l) := validLen_pow l h1 (by omega)
  have h0 : 2 ^ l / 2 < 2 ^ l := by have := hn.two; omega
  obtain ⟨out, outr, h1', h2, h3⟩ := C82_complex (M := 2 ^ 954) (wr := oneArray (2 ^ l) (vals64 v)) (xr := Ptr.base 1) i thr hn hx (oneArray_ok (2 ^ l) _)
    (by
      have : ((2 ^ l : ℕ):ℝ) ≤ 2 ^ 31 := by exact_mod_cast hn.int.le
      calc ((2 ^ l : ℕ):ℝ) * 2 ^ 954 ≤ 2 ^ 31 * 2 ^ 954 := mul_le_mul_of_nonneg_right this (by positivity)
        _ = 2 ^ 985 := by rw [← pow_add]
        _ ≤ 2 ^ 1019 := pow_le_pow_right₀ (by norm_num) (by norm_num))
    (fun t ht => ⟨⟨(hk t ht 0).1, (hk t ht 1).1⟩, le_trans (norm_le_sum _) (by
      have b := fun j => fixed_small (abs_le_total (k := fun t => k t j) (hs j) ht) hq'
      have b0 := b 0
      have b1 := b 1
      rw [← (hk t ht 0).2] at b0
      rw [← (hk t ht 1).2] at b1
      rw [show (2:ℝ) ^ 954 = 2 ^ 953 + 2 ^ 953 by rw [pow_succ]; ring]
      exact add_le_add b0 b1)⟩) e
  obtain ⟨o, h4, h5⟩ := C90_exact i thr h1 hl (oneArray_ok (2 ^ l) (vals64 v)) hq (k := k) (fun t ht j => (hk t ht j).2) hs e he
  refine ⟨out, h1', fun j => ⟨(h3 _ h0 j).1, ?_⟩⟩
  rw [(h3 _ h0 j).2, computes_unique (by simp [oneArray]) h2 h4 _ h0]
  exact h5 j

/-- C90: the relative error of element `n/2`: for any doubles, in the real parts and in the imaginary parts, the error is at most
`(1 + 2^-53)^l - 1` times the sum of the absolute values. -/
theorem C90_relative (i : Target) (thr : Thr) (h1 : 1 ≤ l) (hl : l ≤ 30) {w : World (Xmm (Rounded rnd64))} {x : Ptr}
    {v : ℕ → Xmm (Rounded rnd64)} (hx : UserArray w x (2 ^ l) v) (hv : ∀ t < 2 ^ l, ∀ j, rnd64 (v t j).val = (v t j).val) (e : Entry)
    (he : e ∈ [Entry.fwd0, .inv, .inv0]) :
    letI := i.arith (Rounded rnd64)
    ∃ out : ℕ → Xmm (Rounded rnd64), Computes (complexFFT (Xmm (Rounded rnd64)) thr) (2 ^ l) [(e, x)] w x (2 ^ l) out ∧
      ∀ j, |(out (2 ^ l / 2) j).val - ∑ t ∈ Finset.range (2 ^ l), (-1) ^ t * (v t j).val| ≤
        ((1 + 1 / 2 ^ 53) ^ l - 1) * ∑ t ∈ Finset.range (2 ^ l), |(v t j).val| := by
  letI := i.arith (Rounded rnd64)
  obtain ⟨out, hc, a, b, hab, ⟨c, hc1, ha⟩, ⟨d, hd1, hb⟩⟩ := C90_difference rnd64_keeps i thr h1 hl hx hv e he
  refine ⟨out, hc, fun j => ?_⟩
  have mem : ∀ r t, t ∈ (Multiset.range (2 ^ l)).filter (· % 2 = r) → t < 2 ^ l := fun r t ht => Multiset.mem_range.1 (Multiset.mem_filter.1 ht).1
  obtain ⟨⟨m, hm⟩, ea, sa⟩ := tree_rel (j := j) ha (fun t ht => hv t (mem _ _ ht) j)
  obtain ⟨⟨k, hk⟩, eb, sb⟩ := tree_rel (j := j) hb (fun t ht => hv t (mem _ _ ht) j)
  have e : (out (2 ^ l / 2) j).val = rnd64 ((a j).val - (b j).val) := by
    rw [hab]
    match j with
    | 0 => rfl
    | 1 => rfl
  rw [e, ← parity_diff fun t => (v t j).val, ← parity_sum fun t => |(v t j).val|]
  have r := rnd64_mult (x := (a j).val - (b j).val) ⟨m - k, by rw [hm, hk]; push_cast; ring⟩
  have pa := (abs_nonneg _).trans sa
  have pb := (abs_nonneg _).trans sb
  clear hm hk
  generalize (((Multiset.range (2 ^ l)).filter (· % 2 = 0)).map fun t => (v t j).val).sum = SA at *
  generalize (((Multiset.range (2 ^ l)).filter (· % 2 = 1)).map fun t => (v t j).val).sum = SB at *
  generalize (((Multiset.range (2 ^ l)).filter (· % 2 = 0)).map fun t => |(v t j).val|).sum = TA at *
  generalize (((Multiset.range (2 ^ l)).filter (· % 2 = 1)).map fun t => |(v t j).val|).sum = TB at *
  generalize (a j).val = x at *
  generalize (b j).val = y at *
  have hu : (0:ℝ) ≤ 1 / 2 ^ 53 := by positivity
  generalize (1:ℝ) / 2 ^ 53 = u at *
  obtain ⟨l', rfl⟩ : ∃ l', l = l' + 1 := ⟨l - 1, by omega⟩
  have g1 : (1 + u) ^ c ≤ (1 + u) ^ l' := pow_le_pow_right₀ (by linarith) (by omega)
  have g2 : (1 + u) ^ d ≤ (1 + u) ^ l' := pow_le_pow_right₀ (by linarith) (by omega)
  rw [pow_succ (1 + u)]
  generalize (1 + u) ^ l' = g at *
  have ea' : |x - SA| ≤ (g - 1) * TA := ea.trans (mul_le_mul_of_nonneg_right (by linarith) pa)
  have eb' : |y - SB| ≤ (g - 1) * TB := eb.trans (mul_le_mul_of_nonneg_right (by linarith) pb)
  have t1 : |rnd64 (x - y) - (SA - SB)| ≤ |rnd64 (x - y) - (x - y)| + (|x - SA| + |y - SB|) := by
    rw [show rnd64 (x - y) - (SA - SB) = rnd64 (x - y) - (x - y) + ((x - SA) - (y - SB)) by ring]
    exact (abs_add_le _ _).trans (add_le_add le_rfl (abs_sub _ _))
  have t2 : |x - y| ≤ (|x - SA| + |y - SB|) + (|SA| + |SB|) := by
    rw [show x - y = ((x - SA) - (y - SB)) + (SA - SB) by ring]
    exact (abs_add_le _ _).trans (add_le_add (abs_sub _ _) (abs_sub _ _))
  have t3 : u * |x - y| ≤ u * (((g - 1) * TA + (g - 1) * TB) + (TA + TB)) :=
    mul_le_mul_of_nonneg_left (t2.trans (by linarith)) hu
  nlinarith [t1, t3, r, ea', eb']

end

/-- C90 for concrete data: the unnormalised transform of eight ones and zeros in turn, `1, 0, 1, 0, …`, has element 4 equal to 4. -/
example (i : Target) (thr : Thr) :
    letI := i.arith (Rounded rnd64)
    ∃ out : ℕ → Xmm (Rounded rnd64), Computes (complexFFT (Xmm (Rounded rnd64)) thr) (2 ^ 3) [(Entry.fwd0, Ptr.base 1)]
        (oneArray (2 ^ 3) fun t => (![⟨if t % 2 = 0 then 1 else 0⟩, ⟨0⟩] : Xmm (Rounded rnd64))) (Ptr.base 1) (2 ^ 3) out ∧ (out 4 0).val = 4 := by
  letI := i.arith (Rounded rnd64)
  obtain ⟨out, h1, h2⟩ := C90_exact i thr (l := 3) (by norm_num) (by norm_num)
    (oneArray_ok (2 ^ 3) fun t => (![⟨if t % 2 = 0 then 1 else 0⟩, ⟨0⟩] : Xmm (Rounded rnd64)))
    (q := 0) (by norm_num) (k := fun t j => if j = 0 ∧ t % 2 = 0 then 1 else 0) (fun t _ j => by
      match j with
      | 0 => by_cases h : t % 2 = 0 <;> simp [h]
      | 1 => simp) (fun j => by
      match j with
      | 0 => decide
      | 1 => decide) .fwd0 (by simp)
  refine ⟨out, h1, ?_⟩
  have := h2 0
  norm_num [Finset.sum_range_succ] at this
  exact this

end OTFFT.Props
