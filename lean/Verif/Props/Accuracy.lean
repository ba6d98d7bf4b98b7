/-
C46: accuracy of the transforms in IEEE double precision.
-/
import Verif.Proof.Binary64
import Verif.Proof.RoundLaws
import Verif.Proof.ApMixed
import Verif.Props.Complex
import Mathlib.Analysis.SpecialFunctions.Exp
import Mathlib.Analysis.Complex.ExponentialBounds
import Mathlib.Data.Int.Log
import Mathlib.Algebra.Order.Round

namespace OTFFT.Props

theorem pow_le_two_of {u : ℝ} (hu : 0 ≤ u) {K : ℕ} (h : K * u ≤ 1 / 2) : (1 + u) ^ K ≤ 2 := by
  have h1 : (1 + u) ^ K ≤ Real.exp (K * u) := by
    rw [Real.exp_nat_mul]
    exact pow_le_pow_left₀ (by linarith) (by linarith [Real.add_one_le_exp u]) K
  have h2 : Real.exp (K * u) ≤ Real.exp (1 / 2) := Real.exp_le_exp.2 h
  have h3 : Real.exp (1 / 2) ≤ 2 := by
    have h4 : Real.exp (1 / 2) ^ 2 ≤ 2 ^ 2 := by
      rw [← Real.exp_nat_mul]
      norm_num
      linarith [Real.exp_one_lt_d9]
    exact (abs_le_of_sq_le_sq' h4 (by norm_num)).2
  linarith

theorem pow_sub_one_le {u : ℝ} (hu : 0 ≤ u) {k : ℕ} (h : (1 + u) ^ k ≤ 2) : (1 + u) ^ k - 1 ≤ 2 * (k * u) := by
  induction k with
  | zero => simp
  | succ k ih =>
    have h1 : (1 + u) ^ k ≤ (1 + u) ^ (k + 1) := pow_le_pow_right₀ (by linarith) (by omega)
    have h2 := ih (by linarith)
    rw [pow_succ]
    push_cast
    nlinarith

theorem primeWeight_le {p : ℕ} (hp : 2 ≤ p) : primeWeight p ≤ 70 * (p - 1) := by
  unfold primeWeight
  split
  · omega
  · split
    · omega
    · split <;> omega

/-- the number of roundings is at most `70 (n - 1)` -/
theorem errWeight_le (n : ℕ) : errWeight n ≤ 70 * (n - 1) := by
  induction n using Nat.recOnMul with
  | zero => simp [errWeight]
  | one => simp [errWeight]
  | prime p hp => rw [errWeight_prime hp]; exact primeWeight_le hp.two_le
  | mul a b ha hb =>
    rcases Nat.eq_zero_or_pos a with rfl | h0
    · simp [errWeight]
    rcases Nat.eq_zero_or_pos b with rfl | h1
    · simp [errWeight]
    rw [errWeight_mul (by omega) (by omega)]
    obtain ⟨a, rfl⟩ : ∃ k, a = k + 1 := ⟨a - 1, by omega⟩
    obtain ⟨b, rfl⟩ : ∃ k, b = k + 1 := ⟨b - 1, by omega⟩
    have : (a + 1) * (b + 1) - 1 = a * b + a + b := by
      rw [show (a + 1) * (b + 1) = a * b + a + b + 1 by ring]; omega
    rw [this]
    simp only [Nat.add_sub_cancel] at ha hb
    have := Nat.zero_le (a * b)
    omega

/-- C46: the number of roundings that the bounds count: 50 per factor of two for powers of two, less than `70 n` for every
length. -/
theorem C46_weight : (∀ l, errWeight (2 ^ l) = 50 * l) ∧ ∀ n, errWeight n ≤ 70 * (n - 1) :=
  ⟨errWeight_two_pow, errWeight_le⟩

/-- the range of the error analysis in double precision -/
noncomputable def dblFlt {F : Type} [FArith F] {val : F → ℝ} {fin : F → Prop} (h : Binary64 F val fin) : Flt F where
  val := val
  fin := fin
  u := 1 / 2 ^ 53
  η := 1 / 2 ^ 1075
  Ω := (2 - 1 / 2 ^ 52) * 2 ^ 1023
  m0 := 1 / 2 ^ 1010
  G := 2 ^ 1019
  K := 2 ^ 52
  laws := h
  u_pos := by positivity
  u_le := by norm_num
  η_nonneg := by positivity
  η_le := by
    rw [one_div, one_div, one_div, div_eq_mul_inv, ← mul_inv, ← mul_inv]
    apply inv_anti₀ (by positivity)
    rw [← pow_add]
    have e : (2:ℝ) ^ 1075 = 2 ^ 1063 * 2 ^ 12 := by rw [← pow_add]
    have : (0:ℝ) < 2 ^ 1063 := by positivity
    rw [e]
    norm_num only
    exact mul_le_mul_of_nonneg_left (by norm_num) this.le
  m0_pos := by positivity
  m0_le := one_div_le_one_div_of_le (by positivity) (pow_le_pow_right₀ (by norm_num) (by norm_num))
  G_ge := pow_le_pow_right₀ (by norm_num) (by norm_num)
  G_le := by
    have e : (2:ℝ) ^ 1023 = 2 ^ 1019 * 16 := by rw [show 1023 = 1019 + 4 from rfl, pow_add]; norm_num
    rw [e]
    have : (0:ℝ) < 2 ^ 1019 := by positivity
    have h2 : (1:ℝ) ≤ 2 - 1 / 2 ^ 52 := by norm_num
    generalize (2:ℝ) ^ 1019 = A at this ⊢
    generalize (2:ℝ) - 1 / 2 ^ 52 = B at h2 ⊢
    nlinarith
  pow_le := pow_le_two_of (by positivity) (by push_cast; norm_num)

/-- the computed transform in terms of the pure function of the model -/
theorem fftOut_err {F : Type} [FArith F] [Inhabited F] {val : F → ℝ} {fin : F → Prop} (hF : Binary64 F val fin) (i : Target)
    {n : ℕ} (h2 : 2 ≤ n) (h31 : n ≤ 2 ^ 31) {M : ℝ} (hm : 1 / 2 ^ 970 ≤ M) (hM : n * M ≤ 2 ^ 1019) {v : ℕ → Xmm F}
    (hv : ∀ t < n, cfin fin (v t) ∧ ‖cval val (v t)‖ ≤ M) (thr : Thr) (e : Entry) :
    letI := i.arith F
    ∀ t < n, cfin fin (fftOut (Xmm F) thr e.isInv e.mode n v t) ∧
      ‖cval val (fftOut (Xmm F) thr e.isInv e.mode n v t) - e.exact n (fun j => cval val (v j)) t‖ ≤
        errWeight n / 2 ^ 52 * (e.factor n * n * M) := by
  letI := i.arith F
  intro t ht
  have hn1 : (1:ℝ) ≤ n := by exact_mod_cast (by omega : 1 ≤ n)
  have hn31 : (n:ℝ) ≤ 2 ^ 31 := by exact_mod_cast h31
  have hM0 : 0 < M := lt_of_lt_of_le (by positivity) hm
  have hf : scR n e.mode = e.factor n := by cases e <;> rfl
  have hs := ApLaws.scR_range n e.mode (by omega) h31
  have hs0 : 0 ≤ scR n e.mode := le_trans (by positivity) hs.1
  have hw : errWeight n ≤ 2 ^ 52 := by
    have := errWeight_le n
    omega
  have hin : ∀ t < n, (dblFlt hF).Ap (cval val (v t)) (v t) M 0 := fun t ht =>
    ⟨le_trans (one_div_le_one_div_of_le (by positivity) (pow_le_pow_right₀ (by norm_num) (by norm_num))) hm,
      fun _ _ => ⟨(hv t ht).1, (hv t ht).2, by simp [Flt.cv, dblFlt]⟩⟩
  have hsM : scR n e.mode * M ≤ M := by nlinarith [hs.2]
  have hms : (1:ℝ) / 2 ^ 1010 ≤ scR n e.mode * M := by
    refine le_trans ?_ (mul_le_mul hs.1 hm (by positivity) (by linarith [hs.1, (by positivity : (0:ℝ) < 1 / 2 ^ 31)]))
    rw [div_mul_div_comm, one_mul, ← pow_add]
    exact one_div_le_one_div_of_le (by positivity) (pow_le_pow_right₀ (by norm_num) (by norm_num))
  have h := ((dblFlt hF).apLaws i).fftOut_ap (thr := thr) (inv := e.isInv) (mode := e.mode) h2 h31 hM hms hin t ht
  obtain ⟨a, -, b⟩ := h.2 (le_trans (mul_le_mul_of_nonneg_left hsM (by linarith)) hM) (by rw [Nat.zero_add]; exact hw)
  rw [Nat.zero_add] at b
  have hex : fftOut ℂ thr e.isInv e.mode n (fun j => cval val (v j)) t = e.exact n (fun j => cval val (v j)) t := by
    rw [fftOut_C h2 _ ht, scC_eq, hf]
    cases e <;> rfl
  refine ⟨a, ?_⟩
  rw [← hex]
  refine le_trans b ?_
  have hp := pow_sub_one_le (dblFlt hF).u_nonneg ((dblFlt hF).pow_le_two hw)
  refine le_trans (mul_le_mul_of_nonneg_left hp (mul_nonneg (by linarith) (mul_nonneg hs0 hM0.le))) (le_of_eq ?_)
  rw [hf, show (dblFlt hF).u = 1 / 2 ^ 53 from rfl]
  ring

/-- C46: in IEEE double precision every result of every transform is finite and off by at most
`errWeight n · 2⁻⁵² · (factor · n · M)`, where `M` bounds the inputs: for every length, instruction set, threading
threshold, normalisation and memory layout. Hypotheses on `M`: it is not so large that sums of `n` inputs overflow. -/
theorem C46_accuracy {F : Type} [FArith F] [Inhabited F] {val : F → ℝ} {fin : F → Prop} (hF : Binary64 F val fin)
    (i : Target) (thr : Thr) {n : ℕ} (hn : ValidLen n) {w : World (Xmm F)} {x : Ptr} {v : ℕ → Xmm F}
    (hx : UserArray w x n v) {M : ℝ} (hm : 1 / 2 ^ 970 ≤ M) (hM : n * M ≤ 2 ^ 1019)
    (hv : ∀ t < n, cfin fin (v t) ∧ ‖cval val (v t)‖ ≤ M) (e : Entry) :
    letI := i.arith F
    ∃ out : ℕ → Xmm F, Computes (complexFFT (Xmm F) thr) n [(e, x)] w x n out ∧
      ∀ t < n, cfin fin (out t) ∧ ‖cval val (out t) - e.exact n (fun j => cval val (v j)) t‖ ≤
        errWeight n / 2 ^ 52 * (e.factor n * n * M) := by
  letI := i.arith F
  exact ⟨_, ⟨FFT.calls (es := [e]) hn hx, FFT.lifetime_noFail _ (by have := hn.two; omega) _ (lenNat_calls _)⟩,
    fftOut_err hF i hn.two hn.int.le hm hM hv thr e⟩

/-- C46: and a transform followed by its inverse gives the input back up to `2 · errWeight n · 2⁻⁵² · n · M`. -/
theorem C46_roundtrip {F : Type} [FArith F] [Inhabited F] {val : F → ℝ} {fin : F → Prop} (hF : Binary64 F val fin)
    (i : Target) (thr : Thr) {n : ℕ} (hn : ValidLen n) {w : World (Xmm F)} {x : Ptr} {v : ℕ → Xmm F}
    (hx : UserArray w x n v) {M : ℝ} (hm : 1 / 2 ^ 970 ≤ M) (hM : n * (n * M) ≤ 2 ^ 1019)
    (hv : ∀ t < n, cfin fin (v t) ∧ ‖cval val (v t)‖ ≤ M) (f g : Entry)
    (hfg : (f, g) ∈ [(Entry.fwd, Entry.inv), (.fwd, .inv0), (.fwdn, .inv), (.fwdn, .inv0),
      (.fwd0, .invn), (.fwdu, .invu)]) :
    letI := i.arith F
    ∃ out : ℕ → Xmm F, Computes (complexFFT (Xmm F) thr) n [(f, x), (g, x)] w x n out ∧
      ∀ t < n, cfin fin (out t) ∧ ‖cval val (out t) - cval val (v t)‖ ≤ 2 * errWeight n / 2 ^ 52 * (n * M) := by
  letI := i.arith F
  have h2 := hn.two
  have h31 := hn.int.le
  refine ⟨_, ⟨FFT.calls (es := [f, g]) hn hx, FFT.lifetime_noFail _ (by omega) _ (lenNat_calls _)⟩, fun t ht => ?_⟩
  have key : g.isInv = (!f.isInv) ∧ scC n f.mode * scC n g.mode * n = 1 := by
    simp only [List.mem_cons, Prod.mk.injEq, List.not_mem_nil, or_false] at hfg
    rcases hfg with ⟨rfl, rfl⟩ | ⟨rfl, rfl⟩ | ⟨rfl, rfl⟩ | ⟨rfl, rfl⟩ | ⟨rfl, rfl⟩ | ⟨rfl, rfl⟩
    · exact ⟨rfl, scC_len h2⟩
    · exact ⟨rfl, scC_len h2⟩
    · exact ⟨rfl, scC_len h2⟩
    · exact ⟨rfl, scC_len h2⟩
    · exact ⟨rfl, scC_len' h2⟩
    · exact ⟨rfl, scC_unitary h2⟩
  have hsc : scR n f.mode * scR n g.mode * n = 1 := by
    have := key.2
    rw [scC_eq, scC_eq] at this
    exact_mod_cast this
  have hn1 : (1:ℝ) ≤ n := by exact_mod_cast (by omega : 1 ≤ n)
  have hM0 : 0 < M := lt_of_lt_of_le (by positivity) hm
  have hsf := ApLaws.scR_range n f.mode (by omega) h31
  have hsg := ApLaws.scR_range n g.mode (by omega) h31
  have hf0 : 0 ≤ scR n f.mode := le_trans (by positivity) hsf.1
  have hg0 : 0 ≤ scR n g.mode := le_trans (by positivity) hsg.1
  have hw : errWeight n + errWeight n ≤ 2 ^ 52 := by
    have := errWeight_le n
    omega
  have hin : ∀ t < n, (dblFlt hF).Ap (cval val (v t)) (v t) M 0 := fun t ht =>
    ⟨le_trans (one_div_le_one_div_of_le (by positivity) (pow_le_pow_right₀ (by norm_num) (by norm_num))) hm,
      fun _ _ => ⟨(hv t ht).1, (hv t ht).2, by simp [Flt.cv, dblFlt]⟩⟩
  have hsM : scR n f.mode * M ≤ M := by nlinarith [hsf.2]
  have hmm : (1:ℝ) / 2 ^ 1010 ≤ 1 / 2 ^ 31 * M := by
    refine le_trans ?_ (mul_le_mul_of_nonneg_left hm (by positivity))
    rw [div_mul_div_comm, one_mul, ← pow_add]
    exact one_div_le_one_div_of_le (by positivity) (pow_le_pow_right₀ (by norm_num) (by norm_num))
  have hmf : (1:ℝ) / 2 ^ 1010 ≤ scR n f.mode * M := le_trans hmm (mul_le_mul_of_nonneg_right hsf.1 hM0.le)
  have e2 : scR n g.mode * (n * (scR n f.mode * M)) = M := by linear_combination M * hsc
  have hmg : (1:ℝ) / 2 ^ 1010 ≤ scR n g.mode * (n * (scR n f.mode * M)) := by
    rw [e2]; exact le_trans hmm (by have : (1:ℝ) / 2 ^ 31 ≤ 1 := by norm_num
                                    nlinarith)
  have hG1 : n * M ≤ (2:ℝ) ^ 1019 := le_trans (by nlinarith [mul_pos (by linarith : (0:ℝ) < n) hM0]) hM
  have hG2 : n * (n * (scR n f.mode * M)) ≤ (2:ℝ) ^ 1019 :=
    le_trans (mul_le_mul_of_nonneg_left (mul_le_mul_of_nonneg_left hsM (by linarith)) (by linarith)) hM
  have L := (dblFlt hF).apLaws i
  have h1 := L.fftOut_ap (thr := thr) (inv := f.isInv) (mode := f.mode) h2 h31 hG1 hmf hin
  have h := L.fftOut_ap (thr := thr) (inv := g.isInv) (mode := g.mode) h2 h31 hG2 hmg h1 t ht
  rw [e2, Nat.zero_add] at h
  obtain ⟨a, -, b⟩ := h.2 hG1 hw
  have hex : fftOut ℂ thr g.isInv g.mode n (fftOut ℂ thr f.isInv f.mode n fun j => cval val (v j)) t = cval val (v t) :=
    fftOut_twice (v := fun j => cval val (v j)) h2 f g key.1 key.2 ht
  refine ⟨a, ?_⟩
  rw [hex] at b
  refine le_trans b ?_
  have hp := pow_sub_one_le (dblFlt hF).u_nonneg ((dblFlt hF).pow_le_two hw)
  refine le_trans (mul_le_mul_of_nonneg_left hp (by positivity)) (le_of_eq ?_)
  rw [show (dblFlt hF).u = 1 / 2 ^ 53 from rfl]
  push_cast
  ring

/-! ### the hypotheses are met -/

theorem rnd53_err (x : ℝ) : |rnd53 x - x| ≤ 1 / 2 ^ 53 * |x| := by
  rcases eq_or_ne x 0 with rfl | h
  · simp [rnd53, rne]
  have h0 : 0 < |x| := abs_pos.2 h
  have h1 : (2:ℝ) ^ Int.log 2 |x| ≤ |x| := by exact_mod_cast Int.zpow_log_le_self (b := 2) (by norm_num) h0
  unfold rnd53
  set e := Int.log 2 |x| with he
  have hp : (0:ℝ) < 2 ^ (e - 52) := by positivity
  have h2 : x = x / 2 ^ (e - 52) * 2 ^ (e - 52) := by field_simp
  have h3 := abs_sub_rne (x / 2 ^ (e - 52))
  have h4 : |rne (x / 2 ^ (e - 52)) * 2 ^ (e - 52) - x| = |x / 2 ^ (e - 52) - rne (x / 2 ^ (e - 52))| * 2 ^ (e - 52) := by
    rw [← abs_of_pos hp, ← abs_mul, abs_of_pos hp, abs_sub_comm, sub_mul, ← h2]
  rw [h4]
  have h5 : (2:ℝ) ^ (e - 52) = 2 ^ e / 2 ^ 52 := by rw [zpow_sub₀ (by norm_num)]; norm_cast
  rw [h5]
  calc _ ≤ 1 / 2 * ((2:ℝ) ^ e / 2 ^ 52) := mul_le_mul_of_nonneg_right (by rw [← h5]; exact h3) (by positivity)
    _ ≤ _ := by rw [show (1:ℝ) / 2 * (2 ^ e / 2 ^ 52) = 1 / 2 ^ 53 * 2 ^ e by ring]; gcongr

theorem rounded_laws : Binary64 R53 R53.val (fun _ => True) := by
  have hη : (0:ℝ) ≤ 1 / 2 ^ 1075 := by positivity
  have tr : ∀ x : ℝ, |x| ≤ 1 → 1 / 2 ^ 53 * |x| ≤ 2 * (1 / 2 ^ 53) := fun x hx => by nlinarith
  have h2 : (0:ℝ) ≤ √2 / 2 := by positivity
  have hp := Real.pi_pos
  have hc : 0 ≤ Real.cos (Real.pi / 8) := Real.cos_nonneg_of_mem_Icc ⟨by linarith, by linarith⟩
  have hs : 0 ≤ Real.sin (Real.pi / 8) := Real.sin_nonneg_of_nonneg_of_le_pi (by linarith) (by linarith)
  refine ⟨fun a b _ _ _ => ⟨trivial, rnd53_err (a.val + b.val)⟩, fun a b _ _ _ => ⟨trivial, rnd53_err (a.val - b.val)⟩,
    fun a b _ _ _ => ⟨trivial, le_trans (rnd53_err (a.val * b.val)) (le_add_of_nonneg_right hη)⟩,
    fun a b _ _ _ _ => ⟨trivial, le_trans (rnd53_err (a.val / b.val)) (le_add_of_nonneg_right hη)⟩,
    fun a b c _ _ _ _ => ⟨trivial, le_trans (rnd53_err (a.val * b.val + c.val)) (le_add_of_nonneg_right hη)⟩,
    fun a b c _ _ _ _ => ⟨trivial, le_trans (rnd53_err (a.val * b.val - c.val)) (le_add_of_nonneg_right hη)⟩,
    fun a _ h => ⟨trivial, ?_⟩, fun a _ => ⟨trivial, rfl⟩, fun n _ => ⟨trivial, rfl⟩,
    fun a _ _ => ⟨trivial, le_trans (rnd53_err _) (tr _ (Real.abs_cos_le_one _))⟩,
    fun a _ _ => ⟨trivial, le_trans (rnd53_err _) (tr _ (Real.abs_sin_le_one _))⟩,
    ⟨trivial, ?_⟩, ⟨trivial, ?_⟩, ⟨trivial, ?_⟩, ⟨trivial, ?_⟩⟩
  · have := rnd53_err (√a.val); rwa [abs_of_nonneg (Real.sqrt_nonneg _)] at this
  · have := rnd53_err Real.pi; rwa [abs_of_pos hp] at this
  · have := rnd53_err (√2 / 2); rwa [abs_of_nonneg h2] at this
  · have := rnd53_err (Real.cos (Real.pi / 8)); rwa [abs_of_nonneg hc] at this
  · have := rnd53_err (-Real.sin (Real.pi / 8)); rwa [abs_neg, abs_of_nonneg hs] at this

/-- rounding is not the identity -/
example : rnd53 (1 + 1 / 2 ^ 60) ≠ 1 + 1 / 2 ^ 60 := by
  have h : Int.log 2 |(1 + 1 / 2 ^ 60 : ℝ)| = 0 := by
    rw [abs_of_pos (by positivity)]
    rw [Int.log_of_one_le_right _ (by norm_num)]
    have : ⌊(1 + 1 / 2 ^ 60 : ℝ)⌋₊ = 1 := by rw [Nat.floor_eq_iff (by positivity)]; norm_num
    rw [this]; simp
  unfold rnd53
  rw [h]
  intro e
  have : (rne ((1 + 1 / 2 ^ 60 : ℝ) / 2 ^ ((0:ℤ) - 52)) : ℝ) = (1 + 1 / 2 ^ 60) * 2 ^ 52 := by
    rw [← e, mul_assoc, show ((2:ℝ) ^ ((0:ℤ) - 52)) * 2 ^ 52 = 1 by norm_num, mul_one, e]
  have h2 : ((256 * rne ((1 + 1 / 2 ^ 60 : ℝ) / 2 ^ ((0:ℤ) - 52)) : ℤ) : ℝ) = ((256 * 2 ^ 52 + 1 : ℤ) : ℝ) := by
    rw [Int.cast_mul, this]; norm_num
  have h3 := Int.cast_injective h2
  omega

/-- a length up to 1000 in this arithmetic, AVX with FMA: the error of `fwdn` is below `10⁻⁹` for inputs of magnitude 1 -/
example (thr : Thr) {n : ℕ} (h2 : 2 ≤ n) (hn : n ≤ 1000) (v : ℕ → Xmm R53) (hv : ∀ t < n, ‖cval R53.val (v t)‖ ≤ 1) :
    letI := (⟨true, true, true, true, false⟩ : Target).arith R53
    ∃ out : ℕ → Xmm R53, Computes (complexFFT (Xmm R53) thr) n [(.fwdn, Ptr.base 1)] (oneArray n v) (Ptr.base 1) n out ∧
      ∀ t < n, ‖cval R53.val (out t) - Entry.exact n .fwdn (fun j => cval R53.val (v j)) t‖ ≤ 1 / 10 ^ 9 := by
  have hn' : (n:ℝ) ≤ 1000 := by exact_mod_cast hn
  have h2' : (2:ℝ) ≤ n := by exact_mod_cast h2
  obtain ⟨out, h, hb⟩ := @C46_accuracy R53 _ _ _ _ rounded_laws ⟨true, true, true, true, false⟩ thr
    n (validLen_of_le h2 (by omega)) _ _ _ (oneArray_ok n v) 1
    (div_le_one_of_le₀ (one_le_pow₀ (by norm_num)) (by positivity))
    (by rw [mul_one]; exact le_trans (by linarith : (n:ℝ) ≤ 2 ^ 10) (pow_le_pow_right₀ (by norm_num) (by norm_num)))
    (fun t ht => ⟨⟨trivial, trivial⟩, hv t ht⟩) .fwdn
  refine ⟨out, h, fun t ht => le_trans (hb t ht).2 ?_⟩
  have hw : (errWeight n : ℝ) ≤ 70000 := by exact_mod_cast le_trans (errWeight_le n) (by omega)
  have hf : Entry.factor n .fwdn * n * 1 = 1 := by
    show 1 / (n:ℝ) * n * 1 = 1
    field_simp
  rw [hf]
  calc _ ≤ (70000:ℝ) / 2 ^ 52 * 1 := by gcongr
    _ ≤ _ := by norm_num

end OTFFT.Props
