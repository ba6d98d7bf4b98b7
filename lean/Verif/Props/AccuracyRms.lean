/-
C58: relative accuracy in the root-mean-square sense, in IEEE double precision.
-/
import Verif.Proof.L2Mixed
import Verif.Props.Accuracy

namespace OTFFT.Props

open Finset

/-! ### weights -/

theorem primeWeight2_le {p : ℕ} (hp : 2 ≤ p) (hp2 : p ≤ 46341) : primeWeight2 p ≤ 220 * (p - 1) := by
  unfold primeWeight2
  split
  · omega
  · split
    · omega
    · split
      · omega
      · have hs := Nat.sqrt_le' p
        by_cases h1 : 1850 ≤ p
        · have : Nat.sqrt p ≤ 215 := by
            by_contra hc
            have : 216 ^ 2 ≤ Nat.sqrt p ^ 2 := Nat.pow_le_pow_left (by omega) 2
            omega
          have : (p + 33) * (Nat.sqrt p + 1) ≤ (p + 33) * 216 := Nat.mul_le_mul_left _ (by omega)
          omega
        · by_cases h2 : 10 ≤ p
          · have : Nat.sqrt p ≤ 43 := by
              by_contra hc
              have : 44 ^ 2 ≤ Nat.sqrt p ^ 2 := Nat.pow_le_pow_left (by omega) 2
              omega
            have : (p + 33) * (Nat.sqrt p + 1) ≤ (p + 33) * 44 := Nat.mul_le_mul_left _ (by omega)
            omega
          · have : Nat.sqrt p ≤ 3 := by
              by_contra hc
              have : 4 ^ 2 ≤ Nat.sqrt p ^ 2 := Nat.pow_le_pow_left (by omega) 2
              omega
            have : (p + 33) * (Nat.sqrt p + 1) ≤ (p + 33) * 4 := Nat.mul_le_mul_left _ (by omega)
            omega

theorem errWeight2_le (n : ℕ) (h : ∀ q, q.Prime → q ∣ n → q ≤ 46341) : errWeight2 n ≤ 220 * (n - 1) := by
  induction n using Nat.recOnMul with
  | zero => simp [errWeight2]
  | one => simp [errWeight2]
  | prime p hp => rw [errWeight2_prime hp]; exact primeWeight2_le hp.two_le (h p hp dvd_rfl)
  | mul a b ha hb =>
    rcases Nat.eq_zero_or_pos a with rfl | h0
    · simp [errWeight2]
    rcases Nat.eq_zero_or_pos b with rfl | h1
    · simp [errWeight2]
    have ha := ha fun q hq hd => h q hq (Dvd.dvd.mul_right hd b)
    have hb := hb fun q hq hd => h q hq (Dvd.dvd.mul_left hd a)
    rw [errWeight2_mul (by omega) (by omega)]
    obtain ⟨a, rfl⟩ : ∃ k, a = k + 1 := ⟨a - 1, by omega⟩
    obtain ⟨b, rfl⟩ : ∃ k, b = k + 1 := ⟨b - 1, by omega⟩
    have : (a + 1) * (b + 1) - 1 = a * b + a + b := by
      rw [show (a + 1) * (b + 1) = a * b + a + b + 1 by ring]; omega
    rw [this]
    simp only [Nat.add_sub_cancel] at ha hb
    have := Nat.zero_le (a * b)
    omega

/-- C58: the number of roundings that the bounds count: 55 per factor of two for powers of two, less than `220 n` for every
length that the library supports. -/
theorem C58_weight : (∀ l, errWeight2 (2 ^ l) = 55 * l) ∧ ∀ n, ValidLen n → errWeight2 n ≤ 220 * (n - 1) :=
  ⟨errWeight2_two_pow, fun n hn => errWeight2_le n hn.small⟩

theorem weight_lt {n : ℕ} (hn : ValidLen n) : errWeight2 n + errWeight2 n ≤ 2 ^ 40 := by
  have := errWeight2_le n hn.small
  have := hn.int
  omega

/-! ### constants -/

theorem pow_sub_one_le2 {u : ℝ} (hu : 0 ≤ u) (k : ℕ) : (1 + u) ^ k - 1 ≤ k * u * (1 + u) ^ k := by
  induction k with
  | zero => simp
  | succ k ih =>
    have h1 : 1 ≤ (1 + u) ^ k := one_le_pow₀ (by linarith)
    rw [pow_succ]
    push_cast
    have : 0 ≤ (k:ℝ) * u * ((1 + u) ^ k * u) := by positivity
    have : 0 ≤ u * u * (1 + u) ^ k := by positivity
    nlinarith

/-- `k` roundings of an operand that is at most half too large -/
theorem pow_slack {F : Type} [FArith F] {val : F → ℝ} {fin : F → Prop} (hF : Binary64 F val fin) {k : ℕ} (hk : k ≤ 2 ^ 40)
    {X A : ℝ} (hX : X ≤ 3 / 2 * A) (hA : 0 ≤ A) : ((1 + (dblFlt hF).u) ^ k - 1) * X ≤ k / 2 ^ 52 * A := by
  have hu : (dblFlt hF).u = 1 / 2 ^ 53 := rfl
  have h2 := pow_sub_one_le (dblFlt hF).u_nonneg ((dblFlt hF).pow_le_two (le_trans hk (by
    show 2 ^ 40 ≤ 2 ^ 52; norm_num)))
  have h1 := pow_sub_one_le2 (dblFlt hF).u_nonneg k
  have h3 := (dblFlt hF).one_le_pow k
  have hkr : (k:ℝ) ≤ 2 ^ 40 := by exact_mod_cast hk
  have hk0 : (0:ℝ) ≤ k := by positivity
  rw [hu] at *
  generalize (1 + 1 / 2 ^ 53 : ℝ) ^ k = P at *
  have hP : P ≤ 4 / 3 := by
    have : 2 * ((k:ℝ) * (1 / 2 ^ 53)) ≤ 1 / 3 := by norm_num; linarith
    linarith
  calc (P - 1) * X ≤ (P - 1) * (3 / 2 * A) := mul_le_mul_of_nonneg_left hX (by linarith)
    _ ≤ ((k:ℝ) * (1 / 2 ^ 53) * (4 / 3)) * (3 / 2 * A) := by
      refine mul_le_mul_of_nonneg_right (le_trans h1 (mul_le_mul_of_nonneg_left hP (by positivity))) (by linarith)
    _ = _ := by ring

theorem norm2_eq (n : ℕ) (x : ℕ → ℂ) : norm2 n x = nrm (range n) x := rfl

theorem norm2_nonneg (n : ℕ) (x : ℕ → ℂ) : 0 ≤ norm2 n x := Real.sqrt_nonneg _

/-- what an entry contributes at least -/
noncomputable def floor2 : ℝ := 1 / 2 ^ 979

theorem floor2_le {n : ℕ} (h31 : n ≤ 2 ^ 31) {A : ℝ} (hA : 1 / 2 ^ 960 ≤ A) : √(n:ℝ) * floor2 ≤ A / 2 := by
  have h1 : √(n:ℝ) ≤ 2 ^ 16 := by
    rw [Real.sqrt_le_left (by positivity)]
    have : (n:ℝ) ≤ 2 ^ 31 := by exact_mod_cast h31
    exact le_trans this (by norm_num)
  have h2 : (2:ℝ) ^ 16 * floor2 ≤ A / 2 := by
    refine le_trans ?_ (div_le_div_of_nonneg_right hA (by norm_num))
    unfold floor2
    rw [show (2:ℝ) ^ 979 = 2 ^ 960 * 2 ^ 19 by rw [← pow_add]]
    have : (0:ℝ) < 2 ^ 960 := by positivity
    generalize (2:ℝ) ^ 960 = B at this ⊢
    rw [div_div, mul_one_div, div_le_div_iff₀ (by positivity) (by positivity)]
    nlinarith
  exact le_trans (mul_le_mul_of_nonneg_right h1 (by unfold floor2; positivity)) h2

theorem floor2_sc {s : ℝ} (hs : 1 / 2 ^ 31 ≤ s) : 1 / 2 ^ 1010 ≤ s * floor2 := by
  refine le_trans (le_of_eq ?_) (mul_le_mul_of_nonneg_right hs (by unfold floor2; positivity))
  unfold floor2
  rw [div_mul_div_comm, one_mul, ← pow_add]

theorem floor2_ge : 1 / 2 ^ 1010 ≤ floor2 :=
  one_div_le_one_div_of_le (by positivity) (pow_le_pow_right₀ (by norm_num) (by norm_num))

section
variable {F : Type} [FArith F] [Inhabited F] {val : F → ℝ} {fin : F → Prop} (hF : Binary64 F val fin)

theorem card_range (n : ℕ) : ((#(range n) : ℕ) : ℝ) = n := by simp

/-- the transform as a map, in double precision -/
theorem fftOut_map (i : Target) {n : ℕ} (h2 : 2 ≤ n) (h31 : n ≤ 2 ^ 31) (thr : Thr) (e : Entry) {f g : ℝ} (hf : 1 / 2 ^ 1010 ≤ f)
    (hm : 1 / 2 ^ 1010 ≤ scR n e.mode * f) (hg : √n * (2 * g) ≤ 2 ^ 1019) :
    letI := i.arith F
    (dblFlt hF).Op (range n) (fftOut ℂ thr e.isInv e.mode n) (fftOut (Xmm F) thr e.isInv e.mode n) (√n * scR n e.mode)
      (errWeight2 n) f g := by
  letI := i.arith F
  refine Flt.Op.fftOut_op ((dblFlt hF).apLaws i) ?_ h2 h31 ⟨hf, hg⟩ hm
  show 1000 ≤ 2 ^ 52; norm_num

theorem exact_of {n : ℕ} (h2 : 2 ≤ n) (thr : Thr) (e : Entry) (x : ℕ → ℂ) {t : ℕ} (ht : t < n) :
    fftOut ℂ thr e.isInv e.mode n x t = e.exact n x t := by
  have hf : scR n e.mode = e.factor n := by cases e <;> rfl
  rw [fftOut_C h2 _ ht, scC_eq, hf]
  cases e <;> rfl

include hF in
theorem fftOut_err2 (i : Target) {n : ℕ} (hn : ValidLen n) {A : ℝ} (hA : 1 / 2 ^ 960 ≤ A) (hG : √n * A ≤ 2 ^ 1017)
    {v : ℕ → Xmm F} (hv : ∀ t < n, cfin fin (v t)) (hvA : norm2 n (fun t => cval val (v t)) ≤ A) (thr : Thr) (e : Entry) :
    letI := i.arith F
    (∀ t < n, cfin fin (fftOut (Xmm F) thr e.isInv e.mode n v t)) ∧
      norm2 n (fun t => cval val (fftOut (Xmm F) thr e.isInv e.mode n v t) - e.exact n (fun j => cval val (v j)) t) ≤
        errWeight2 n / 2 ^ 52 * (e.factor n * √n * A) := by
  letI := i.arith F
  have h2 := hn.two
  have h31 := hn.int.le
  have hs := ApLaws.scR_range n e.mode (by omega) h31
  have hs0 := (ApLaws.scR_pos n e.mode (by omega)).le
  have hf : scR n e.mode = e.factor n := by cases e <;> rfl
  have hA0 : 0 ≤ A := le_trans (by positivity) hA
  have hw := weight_lt hn
  have op := fftOut_map hF i h2 h31 thr e floor2_ge (floor2_sc hs.1) (g := 2 * A) (by
    have e : (2:ℝ) ^ 1019 = 4 * 2 ^ 1017 := by rw [show 1019 = 2 + 1017 from rfl, pow_add]; norm_num
    rw [e]
    generalize (2:ℝ) ^ 1017 = B at hG ⊢
    linarith)
  have hfl := floor2_le h31 hA
  have hX : nrm (range n) (fun t => (dblFlt hF).cv (v t)) + √(#(range n)) * floor2 ≤ 3 / 2 * A := by
    rw [card_range]
    have : nrm (range n) (fun t => (dblFlt hF).cv (v t)) ≤ A := hvA
    linarith
  obtain ⟨a, b⟩ := op.loc v (2 * A) 0 (fun t ht => hv t (mem_range.1 ht)) (by rw [pow_zero, one_mul]; linarith)
    (by show 0 + errWeight2 n ≤ 2 ^ 52; omega) le_rfl
  refine ⟨fun t ht => a t (mem_range.2 ht), ?_⟩
  rw [norm2_eq, nrm_congr (w := fun t => (dblFlt hF).cv (fftOut (Xmm F) thr e.isInv e.mode n v t) -
    fftOut ℂ thr e.isInv e.mode n (fun j => cval val (v j)) t)
    fun t ht => by rw [exact_of h2 thr e _ (mem_range.1 ht)]; rfl]
  refine le_trans b ?_
  have := mul_le_mul_of_nonneg_left (pow_slack hF (k := errWeight2 n) (by omega) hX hA0)
    (mul_nonneg (Real.sqrt_nonneg (n:ℝ)) hs0)
  rw [mul_assoc]
  refine le_trans this (le_of_eq ?_)
  rw [hf]
  ring

include hF in
/-- C58: in IEEE double precision every result of every transform is finite, and the 2-norm of the error is at most
`errWeight2 n · 2⁻⁵² · (factor · √n · A)`, where `A` bounds the 2-norm of the input: for every length, instruction set,
threading threshold, normalisation and memory layout. Hypotheses on `A`: `√n A`, which is the size of the exact result,
stays below the largest double by a factor of 128. -/
theorem C58_rms (i : Target) (thr : Thr) {n : ℕ} (hn : ValidLen n) {w : World (Xmm F)} {x : Ptr} {v : ℕ → Xmm F}
    (hx : UserArray w x n v) {A : ℝ} (hA : 1 / 2 ^ 960 ≤ A) (hG : √n * A ≤ 2 ^ 1017) (hv : ∀ t < n, cfin fin (v t))
    (hvA : norm2 n (fun t => cval val (v t)) ≤ A) (e : Entry) :
    letI := i.arith F
    ∃ out : ℕ → Xmm F, Computes (complexFFT (Xmm F) thr) n [(e, x)] w x n out ∧ (∀ t < n, cfin fin (out t)) ∧
      norm2 n (fun t => cval val (out t) - e.exact n (fun j => cval val (v j)) t) ≤
        errWeight2 n / 2 ^ 52 * (e.factor n * √n * A) := by
  letI := i.arith F
  exact ⟨_, ⟨FFT.calls (es := [e]) hn hx, FFT.lifetime_noFail _ (by have := hn.two; omega) _ (lenNat_calls _)⟩,
    fftOut_err2 hF i hn hA hG hv hvA thr e⟩

/-- the exact transform has 2-norm `factor · √n · ‖x‖` -/
theorem exact_norm2 {n : ℕ} (hn : 1 ≤ n) (e : Entry) (x : ℕ → ℂ) : norm2 n (e.exact n x) = e.factor n * √n * norm2 n x := by
  have hs0 := (ApLaws.scR_pos n e.mode hn).le
  have hf : scR n e.mode = e.factor n := by cases e <;> rfl
  rw [hf] at hs0
  have hex : ∀ t, e.exact n x t = (e.factor n : ℂ) * xdft e.isInv n x t := fun t => by cases e <;> rfl
  have hp := xdft_parseval e.isInv n x
  unfold Spec.energy at hp
  simp only [Complex.normSq_eq_norm_sq] at hp
  unfold norm2
  simp only [hex, norm_mul, mul_pow, Complex.norm_real, Real.norm_of_nonneg hs0]
  rw [← mul_sum, hp, Real.sqrt_mul (by positivity), Real.sqrt_sq hs0, Real.sqrt_mul (by positivity), mul_assoc]

include hF in
/-- C58: so the relative error of the whole result vector is at most `errWeight2 n · 2⁻⁵²`, whatever the input looks like. -/
theorem C58_relative (i : Target) (thr : Thr) {n : ℕ} (hn : ValidLen n) {w : World (Xmm F)} {x : Ptr} {v : ℕ → Xmm F}
    (hx : UserArray w x n v) (hv : ∀ t < n, cfin fin (v t)) (hlo : 1 / 2 ^ 960 ≤ norm2 n (fun t => cval val (v t)))
    (hhi : √n * norm2 n (fun t => cval val (v t)) ≤ 2 ^ 1017) (e : Entry) :
    letI := i.arith F
    ∃ out : ℕ → Xmm F, Computes (complexFFT (Xmm F) thr) n [(e, x)] w x n out ∧ (∀ t < n, cfin fin (out t)) ∧
      norm2 n (fun t => cval val (out t) - e.exact n (fun j => cval val (v j)) t) ≤
        errWeight2 n / 2 ^ 52 * norm2 n (e.exact n fun j => cval val (v j)) := by
  letI := i.arith F
  rw [exact_norm2 (by have := hn.two; omega)]
  exact C58_rms hF i thr hn hx hlo hhi hv le_rfl e

include hF in
/-- C58: and energy is kept (Parseval) up to the same relative error. -/
theorem C58_energy (i : Target) (thr : Thr) {n : ℕ} (hn : ValidLen n) {w : World (Xmm F)} {x : Ptr} {v : ℕ → Xmm F}
    (hx : UserArray w x n v) (hv : ∀ t < n, cfin fin (v t)) (hlo : 1 / 2 ^ 960 ≤ norm2 n (fun t => cval val (v t)))
    (hhi : √n * norm2 n (fun t => cval val (v t)) ≤ 2 ^ 1017) (e : Entry) :
    letI := i.arith F
    ∃ out : ℕ → Xmm F, Computes (complexFFT (Xmm F) thr) n [(e, x)] w x n out ∧
      |norm2 n (fun t => cval val (out t)) - e.factor n * √n * norm2 n (fun t => cval val (v t))| ≤
        errWeight2 n / 2 ^ 52 * (e.factor n * √n * norm2 n (fun t => cval val (v t))) := by
  letI := i.arith F
  obtain ⟨out, h, -, b⟩ := C58_relative hF i thr hn hx hv hlo hhi e
  refine ⟨out, h, ?_⟩
  have hex := exact_norm2 (n := n) (by have := hn.two; omega) e fun j => cval val (v j)
  rw [← hex]
  refine le_trans ?_ b
  simp only [norm2_eq]
  have t1 := nrm_add_le (A := range n) (v := fun t => cval val (out t) - e.exact n (fun j => cval val (v j)) t)
    (w := e.exact n fun j => cval val (v j))
  have t2 := nrm_add_le (A := range n) (v := fun t => -1 * (cval val (out t) - e.exact n (fun j => cval val (v j)) t))
    (w := fun t => cval val (out t))
  rw [nrm_mul] at t2
  simp only [sub_add_cancel, norm_neg, norm_one, one_mul, neg_mul, neg_sub] at t1 t2
  rw [abs_le]
  constructor <;> linarith

include hF in
/-- a round trip, for data of 2-norm at most `A` -/
theorem trip_err2 (i : Target) (thr : Thr) {n : ℕ} (hn : ValidLen n) {v : ℕ → Xmm F} (hv : ∀ t < n, cfin fin (v t)) {A : ℝ}
    (hlo : 1 / 2 ^ 960 ≤ A) (hhi : n * A ≤ 2 ^ 1017) (hvA : norm2 n (fun t => cval val (v t)) ≤ A) (f g : Entry)
    (hfg : (f, g) ∈ [(Entry.fwd, Entry.inv), (.fwd, .inv0), (.fwdn, .inv), (.fwdn, .inv0),
      (.fwd0, .invn), (.fwdu, .invu)]) :
    letI := i.arith F
    (∀ t < n, cfin fin (fftOut (Xmm F) thr g.isInv g.mode n (fftOut (Xmm F) thr f.isInv f.mode n v) t)) ∧
      norm2 n (fun t => cval val (fftOut (Xmm F) thr g.isInv g.mode n (fftOut (Xmm F) thr f.isInv f.mode n v) t) - cval val (v t)) ≤
        2 * errWeight2 n / 2 ^ 52 * A := by
  letI := i.arith F
  have h2 := hn.two
  have h31 := hn.int.le
  have key : g.isInv = (!f.isInv) ∧ scC n f.mode * scC n g.mode * n = 1 := by
    simp only [List.mem_cons, Prod.mk.injEq, List.not_mem_nil, or_false] at hfg
    rcases hfg with ⟨rfl, rfl⟩ | ⟨rfl, rfl⟩ | ⟨rfl, rfl⟩ | ⟨rfl, rfl⟩ | ⟨rfl, rfl⟩ | ⟨rfl, rfl⟩
    · exact ⟨rfl, scC_len h2⟩
    · exact ⟨rfl, scC_len h2⟩
    · exact ⟨rfl, scC_len h2⟩
    · exact ⟨rfl, scC_len h2⟩
    · exact ⟨rfl, scC_len' h2⟩
    · exact ⟨rfl, scC_unitary h2⟩
  have hsc : scR n f.mode * scR n g.mode * n = 1 := by
    have := key.2
    rw [scC_eq, scC_eq] at this
    exact_mod_cast this
  have hn1 : (1:ℝ) ≤ n := by exact_mod_cast (by omega : 1 ≤ n)
  have hn31 : (n:ℝ) ≤ 2 ^ 31 := by exact_mod_cast h31
  have hq1 : 1 ≤ √(n:ℝ) := Real.one_le_sqrt.2 hn1
  have hqq : √(n:ℝ) * √n = n := Real.mul_self_sqrt (by linarith)
  have hqn : √(n:ℝ) ≤ n := by nlinarith
  have hA0 : 0 ≤ A := le_trans (by positivity) hlo
  have hsf := ApLaws.scR_range n f.mode (by omega) h31
  have hsg := ApLaws.scR_range n g.mode (by omega) h31
  have hf0 := (ApLaws.scR_pos n f.mode (by omega)).le
  have hg0 := (ApLaws.scR_pos n g.mode (by omega)).le
  have hw := weight_lt hn
  have hfl0 : 0 < floor2 := by unfold floor2; positivity
  have e19 : (2:ℝ) ^ 1019 = 4 * 2 ^ 1017 := by rw [show 1019 = 2 + 1017 from rfl, pow_add]; norm_num
  have op1 := fftOut_map hF i h2 h31 thr f floor2_ge (floor2_sc hsf.1) (g := 2 * A) (by
    rw [e19]
    generalize (2:ℝ) ^ 1017 = B at hhi ⊢
    nlinarith)
  have op2 := fftOut_map hF i h2 h31 thr g (f := √n * scR n f.mode * floor2) (g := √n * scR n f.mode * (2 * A)) (by
    refine le_trans (floor2_sc hsf.1) ?_
    rw [mul_assoc]
    exact le_mul_of_one_le_left (mul_nonneg hf0 hfl0.le) hq1) (by
    have e : scR n g.mode * (√n * scR n f.mode * floor2) * √n = floor2 := by
      linear_combination floor2 * hsc + scR n g.mode * scR n f.mode * floor2 * hqq
    have h : 1 / 2 ^ 31 * floor2 * √n ≤ scR n g.mode * (√n * scR n f.mode * floor2) * √n := by
      rw [e]
      have : √(n:ℝ) ≤ 2 ^ 31 := le_trans hqn hn31
      have : 1 / 2 ^ 31 * √(n:ℝ) ≤ 1 := by
        rw [one_div_mul_eq_div]; exact div_le_one_of_le₀ this (by positivity)
      nlinarith
    exact le_trans (floor2_sc le_rfl) (le_of_mul_le_mul_right h (by linarith))) (by
    rw [e19]
    have : √(n:ℝ) * (2 * (√n * scR n f.mode * (2 * A))) = 4 * (n * (scR n f.mode * A)) := by
      linear_combination 4 * scR n f.mode * A * hqq
    rw [this]
    have : n * (scR n f.mode * A) ≤ n * A := by
      refine mul_le_mul_of_nonneg_left ?_ (by linarith)
      nlinarith [hsf.2]
    generalize (2:ℝ) ^ 1017 = B at hhi ⊢
    linarith)
  have op := Flt.Op.comp op1 op2 le_rfl le_rfl
  have hl : √(n:ℝ) * scR n f.mode * (√n * scR n g.mode) = 1 := by
    linear_combination scR n f.mode * scR n g.mode * hqq + hsc
  rw [hl] at op
  have hfl := floor2_le h31 hlo
  have hX : nrm (range n) (fun t => (dblFlt hF).cv (v t)) + √(#(range n)) * floor2 ≤ 3 / 2 * A := by
    rw [card_range]
    have : nrm (range n) (fun t => (dblFlt hF).cv (v t)) ≤ A := hvA
    linarith
  obtain ⟨a, b⟩ := op.loc v (2 * A) 0 (fun t ht => hv t (mem_range.1 ht)) (by rw [pow_zero, one_mul]; linarith)
    (by show 0 + (errWeight2 n + errWeight2 n) ≤ 2 ^ 52; omega) le_rfl
  refine ⟨fun t ht => a t (mem_range.2 ht), ?_⟩
  have hex : ∀ t < n, fftOut ℂ thr g.isInv g.mode n (fftOut ℂ thr f.isInv f.mode n fun j => cval val (v j)) t =
      cval val (v t) := fun t ht => fftOut_twice (v := fun j => cval val (v j)) h2 f g key.1 key.2 ht
  have hcong := nrm_congr (A := range n) (v := fun t => cval val (fftOut (Xmm F) thr g.isInv g.mode n
      (fftOut (Xmm F) thr f.isInv f.mode n v) t) - cval val (v t))
    (w := fun t => (dblFlt hF).cv (fftOut (Xmm F) thr g.isInv g.mode n (fftOut (Xmm F) thr f.isInv f.mode n v) t) -
      fftOut ℂ thr g.isInv g.mode n (fftOut ℂ thr f.isInv f.mode n fun j => cval val (v j)) t)
    fun t ht => by rw [hex t (mem_range.1 ht)]; rfl
  refine le_trans (le_of_eq hcong) (le_trans b ?_)
  have := pow_slack hF (k := errWeight2 n + errWeight2 n) (by omega) hX hA0
  rw [one_mul]
  refine le_trans this (le_of_eq ?_)
  push_cast
  ring


include hF in
/-- C58: a transform followed by its inverse gives the input back with a relative error of at most
`2 · errWeight2 n · 2⁻⁵²` in the 2-norm. -/
theorem C58_roundtrip (i : Target) (thr : Thr) {n : ℕ} (hn : ValidLen n) {w : World (Xmm F)} {x : Ptr} {v : ℕ → Xmm F}
    (hx : UserArray w x n v) (hv : ∀ t < n, cfin fin (v t)) (hlo : 1 / 2 ^ 960 ≤ norm2 n (fun t => cval val (v t)))
    (hhi : n * norm2 n (fun t => cval val (v t)) ≤ 2 ^ 1017) (f g : Entry)
    (hfg : (f, g) ∈ [(Entry.fwd, Entry.inv), (.fwd, .inv0), (.fwdn, .inv), (.fwdn, .inv0),
      (.fwd0, .invn), (.fwdu, .invu)]) :
    letI := i.arith F
    ∃ out : ℕ → Xmm F, Computes (complexFFT (Xmm F) thr) n [(f, x), (g, x)] w x n out ∧ (∀ t < n, cfin fin (out t)) ∧
      norm2 n (fun t => cval val (out t) - cval val (v t)) ≤ 2 * errWeight2 n / 2 ^ 52 * norm2 n (fun t => cval val (v t)) := by
  letI := i.arith F
  have h2 := hn.two
  exact ⟨_, ⟨FFT.calls (es := [f, g]) hn hx, FFT.lifetime_noFail _ (by omega) _ (lenNat_calls _)⟩,
    trip_err2 hF i thr hn hv hlo hhi le_rfl f g hfg⟩

end

/-! ### the hypotheses are met -/

/-- a length `2^l` up to `2^20`, AVX with FMA: the relative error of `fwd0` is below `10⁻¹²` for every input of 2-norm 1 -/
example (thr : Thr) {l : ℕ} (h1 : 1 ≤ l) (hl : l ≤ 20) (v : ℕ → Xmm R53)
    (hv : norm2 (2 ^ l) (fun t => cval R53.val (v t)) = 1) :
    letI := (⟨true, true, true, true, false⟩ : Target).arith R53
    ∃ out : ℕ → Xmm R53, Computes (complexFFT (Xmm R53) thr) (2 ^ l) [(.fwd0, Ptr.base 1)] (oneArray (2 ^ l) v) (Ptr.base 1)
        (2 ^ l) out ∧
      norm2 (2 ^ l) (fun t => cval R53.val (out t) - Entry.exact (2 ^ l) .fwd0 (fun j => cval R53.val (v j)) t) ≤
        1 / 10 ^ 12 * norm2 (2 ^ l) (Entry.exact (2 ^ l) .fwd0 fun j => cval R53.val (v j)) := by
  have h2 : 2 ≤ 2 ^ l := by
    calc 2 = 2 ^ 1 := rfl
      _ ≤ 2 ^ l := Nat.pow_le_pow_right (by omega) h1
  have h3 : 2 ^ l ≤ 2 ^ 20 := Nat.pow_le_pow_right (by omega) hl
  obtain ⟨out, h, -, hb⟩ := @C58_relative R53 _ _ _ _ rounded_laws ⟨true, true, true, true, false⟩ thr
    (2 ^ l) (validLen_pow l h1 (by omega)) _ _ _ (oneArray_ok (2 ^ l) v) (fun t _ => ⟨trivial, trivial⟩)
    (by rw [hv]; exact div_le_one_of_le₀ (one_le_pow₀ (by norm_num)) (by positivity))
    (by
      rw [hv, mul_one]
      have : √((2 ^ l : ℕ) : ℝ) ≤ 2 ^ 20 := by
        rw [Real.sqrt_le_left (by positivity)]
        have : ((2 ^ l : ℕ) : ℝ) ≤ 2 ^ 20 := by exact_mod_cast h3
        exact le_trans this (by norm_num)
      exact le_trans this (pow_le_pow_right₀ (by norm_num) (by norm_num))) .fwd0
  refine ⟨out, h, le_trans hb (mul_le_mul_of_nonneg_right ?_ (norm2_nonneg _ _))⟩
  rw [errWeight2_two_pow]
  have : ((55 * l : ℕ) : ℝ) ≤ 1100 := by exact_mod_cast (by omega)
  calc _ ≤ (1100:ℝ) / 2 ^ 52 := by gcongr
    _ ≤ _ := by norm_num

end OTFFT.Props
