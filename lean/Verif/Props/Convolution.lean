/-
C63: fast convolution in double precision, and exact convolution of integers.
-/
import Verif.Proof.Product
import Verif.Props.AccuracyRms

namespace OTFFT.Props

open Finset

/-! ### exact transforms -/

theorem exact_diff (n : ℕ) (e : Entry) (x y : ℕ → ℂ) (t : ℕ) : e.exact n x t - e.exact n y t = e.exact n (fun j => x j - y j) t := by
  have h : ∀ inv, xdft inv n (fun j => x j - y j) t = xdft inv n x t - xdft inv n y t := fun inv => by
    have h1 := xdft_add inv n 1 (-1) x y t
    rw [show (fun j => x j - y j) = fun j => 1 * x j + (-1) * y j from funext fun j => by ring, h1]
    ring
  cases e <;> (simp only [Entry.exact, Spec.dft_eq, Spec.idft_eq, h]; ring)

/-- the product of two transforms, transformed back, is the convolution -/
theorem exact_conv {n : ℕ} {f g h : Entry} (hf : f ∈ [Entry.fwd, .fwd0, .fwdu, .fwdn]) (hg : g ∈ [Entry.fwd, .fwd0, .fwdu, .fwdn])
    (hh : h ∈ [Entry.inv, .inv0, .invu, .invn]) (a b : ℕ → ℂ) {t : ℕ} (ht : t < n) :
    h.exact n (fun k => f.exact n a k * g.exact n b k) t =
      ((f.factor n * g.factor n * h.factor n * n : ℝ) : ℂ) * Spec.conv n a b t := by
  have e1 : ∀ k, f.exact n a k = f.factor n * Spec.dft n a k := fun k => by
    simp only [List.mem_cons, List.not_mem_nil, or_false] at hf
    rcases hf with rfl | rfl | rfl | rfl <;> rfl
  have e2 : ∀ k, g.exact n b k = g.factor n * Spec.dft n b k := fun k => by
    simp only [List.mem_cons, List.not_mem_nil, or_false] at hg
    rcases hg with rfl | rfl | rfl | rfl <;> rfl
  have e3 : ∀ v k, h.exact n v k = h.factor n * Spec.idft n v k := fun v k => by
    simp only [List.mem_cons, List.not_mem_nil, or_false] at hh
    rcases hh with rfl | rfl | rfl | rfl <;> rfl
  have hc := conv_inv a b ht
  rw [Spec.idft_eq] at hc
  have es : (fun k => f.exact n a k * g.exact n b k) =
      fun k => ((f.factor n : ℂ) * g.factor n) * (Spec.dft n a k * Spec.dft n b k) := funext fun k => by rw [e1, e2]; ring
  rw [e3, es, Spec.idft_eq, xdft_smul, hc]
  push_cast
  ring

/-! ### double precision -/

section
variable {F : Type} [FArith F] [Inhabited F] {val : F → ℝ} {fin : F → Prop} (hF : Binary64 F val fin)

theorem sqrt_le16 {n : ℕ} (h31 : n ≤ 2 ^ 31) : √(n:ℝ) ≤ 2 ^ 16 := by
  rw [Real.sqrt_le_left (by positivity)]
  have : (n:ℝ) ≤ 2 ^ 31 := by exact_mod_cast h31
  exact le_trans this (by norm_num)

theorem scaled_range {n : ℕ} (h1 : 1 ≤ n) (h31 : n ≤ 2 ^ 31) (e : Entry) {A : ℝ} (hA : 1 / 2 ^ 400 ≤ A) (hA' : A ≤ 2 ^ 400) :
    1 / 2 ^ 440 ≤ e.factor n * √n * A ∧ e.factor n * √n * A ≤ 2 ^ 420 := by
  have hs := ApLaws.scR_range n e.mode h1 h31
  have hf : scR n e.mode = e.factor n := by cases e <;> rfl
  rw [hf] at hs
  have q1 : 1 ≤ √(n:ℝ) := by rw [Real.one_le_sqrt]; exact_mod_cast h1
  have q2 := sqrt_le16 h31
  have A0 : 0 ≤ A := le_trans (by positivity) hA
  have s0 : 0 ≤ e.factor n := le_trans (by positivity) hs.1
  constructor
  · have : (1:ℝ) / 2 ^ 440 ≤ 1 / 2 ^ 31 * 1 * (1 / 2 ^ 400) := by
      rw [mul_one, one_div_mul_one_div, ← pow_add]
      exact one_div_le_one_div_of_le (by positivity) (pow_le_pow_right₀ (by norm_num) (by norm_num))
    refine le_trans this (mul_le_mul (mul_le_mul hs.1 q1 (by norm_num) s0) hA (by positivity) (mul_nonneg s0 (by linarith)))
  · have : (1:ℝ) * 2 ^ 16 * 2 ^ 400 ≤ 2 ^ 420 := by
      rw [one_mul, ← pow_add]
      exact pow_le_pow_right₀ (by norm_num) (by norm_num)
    exact le_trans (mul_le_mul (mul_le_mul hs.2 q2 (by linarith) (by norm_num)) hA' A0 (by positivity)) this

theorem inner_range {n : ℕ} (h31 : n ≤ 2 ^ 31) {α β : ℝ} (hα : 1 / 2 ^ 440 ≤ α) (hα' : α ≤ 2 ^ 420)
    (hβ : 1 / 2 ^ 440 ≤ β) (hβ' : β ≤ 2 ^ 420) : 1 / 2 ^ 960 ≤ 11 / 10 * (α * β) ∧ √n * (11 / 10 * (α * β)) ≤ 2 ^ 1014 := by
  have α0 : 0 ≤ α := le_trans (by positivity) hα
  have β0 : 0 ≤ β := le_trans (by positivity) hβ
  constructor
  · have h := mul_le_mul hα hβ (by positivity) α0
    rw [one_div_mul_one_div, ← pow_add] at h
    have : (1:ℝ) / 2 ^ 960 ≤ 1 / 2 ^ (440 + 440) :=
      one_div_le_one_div_of_le (by positivity) (pow_le_pow_right₀ (by norm_num) (by norm_num))
    have := mul_nonneg α0 β0
    linarith
  · have h := mul_le_mul hα' hβ' β0 (by positivity)
    have q2 := sqrt_le16 h31
    have : √(n:ℝ) * (11 / 10 * (α * β)) ≤ 2 ^ 16 * (2 ^ 1 * (2 ^ 420 * 2 ^ 420)) :=
      mul_le_mul q2 (by rw [pow_one]; exact mul_le_mul (by norm_num) h (mul_nonneg α0 β0) (by norm_num)) (by positivity) (by positivity)
    refine le_trans this ?_
    rw [← pow_add, ← pow_add, ← pow_add]
    exact pow_le_pow_right₀ (by norm_num) (by norm_num)

include hF in
/-- C63: transform `a` and `b` (2-norms at most `A` and `B`), multiply the results entry by entry with `operator*` of `complex_t`, transform
back: in IEEE double precision everything is finite, and the result is the circular convolution of `a` and `b` times the product
of the normalisation factors, up to `(4 errWeight2 n + 6) · 2⁻⁵²` times `√n A B`, the largest value that the 2-norm of the
convolution can have. -/
theorem C63_convolution (i : Target) (thr : Thr) {n : ℕ} (hn : ValidLen n) {a b : ℕ → Xmm F} {A B : ℝ}
    (hA : 1 / 2 ^ 400 ≤ A) (hA' : A ≤ 2 ^ 400) (hB : 1 / 2 ^ 400 ≤ B) (hB' : B ≤ 2 ^ 400)
    (fa : ∀ t < n, cfin fin (a t)) (fb : ∀ t < n, cfin fin (b t))
    (na : norm2 n (fun t => cval val (a t)) ≤ A) (nb : norm2 n (fun t => cval val (b t)) ≤ B)
    {f g h : Entry} (hf : f ∈ [Entry.fwd, .fwd0, .fwdu, .fwdn]) (hg : g ∈ [Entry.fwd, .fwd0, .fwdu, .fwdn])
    (hh : h ∈ [Entry.inv, .inv0, .invu, .invn]) :
    letI := i.arith F
    ∃ X Y out : ℕ → Xmm F,
      (∀ w x, UserArray w x n a → Computes (complexFFT (Xmm F) thr) n [(f, x)] w x n X) ∧
      (∀ w x, UserArray w x n b → Computes (complexFFT (Xmm F) thr) n [(g, x)] w x n Y) ∧
      (∀ w x, UserArray w x n (fun k => Cpx.mul (X k) (Y k)) → Computes (complexFFT (Xmm F) thr) n [(h, x)] w x n out) ∧
      (∀ t < n, cfin fin (out t)) ∧
      norm2 n (fun t => cval val (out t) - ((f.factor n * g.factor n * h.factor n * n : ℝ) : ℂ) *
          Spec.conv n (fun j => cval val (a j)) (fun j => cval val (b j)) t) ≤
        (4 * errWeight2 n + 6) / 2 ^ 52 * (f.factor n * g.factor n * h.factor n * n * (√n * A * B)) := by
  letI := i.arith F
  have h2 := hn.two
  have h31 := hn.int.le
  have lo : (1:ℝ) / 2 ^ 960 ≤ 1 / 2 ^ 400 := one_div_le_one_div_of_le (by positivity) (pow_le_pow_right₀ (by norm_num) (by norm_num))
  have top : ∀ {A : ℝ}, 0 ≤ A → A ≤ 2 ^ 400 → √(n:ℝ) * A ≤ 2 ^ 1017 := fun {A} h0 hA => by
    refine le_trans (mul_le_mul (sqrt_le16 h31) hA h0 (by positivity)) ?_
    rw [← pow_add]
    exact pow_le_pow_right₀ (by norm_num) (by norm_num)
  have A0 : 0 ≤ A := le_trans (by positivity) hA
  have B0 : 0 ≤ B := le_trans (by positivity) hB
  obtain ⟨α1, α2⟩ := scaled_range (by omega) h31 f hA hA'
  obtain ⟨β1, β2⟩ := scaled_range (by omega) h31 g hB hB'
  obtain ⟨fX, eX⟩ := fftOut_err2 hF i hn (le_trans lo hA) (top A0 hA') fa na thr f
  obtain ⟨fY, eY⟩ := fftOut_err2 hF i hn (le_trans lo hB) (top B0 hB') fb nb thr g
  have nX := exact_norm2 (n := n) (by omega) f fun j => cval val (a j)
  have nY := exact_norm2 (n := n) (by omega) g fun j => cval val (b j)
  have sf := (ApLaws.scR_pos n f.mode (by omega)).le
  rw [show scR n f.mode = f.factor n by cases f <;> rfl] at sf
  have sg := (ApLaws.scR_pos n g.mode (by omega)).le
  rw [show scR n g.mode = g.factor n by cases g <;> rfl] at sg
  have sh := (ApLaws.scR_pos n h.mode (by omega)).le
  rw [show scR n h.mode = h.factor n by cases h <;> rfl] at sh
  have q0 := Real.sqrt_nonneg (n:ℝ)
  have nX' : norm2 n (f.exact n fun j => cval val (a j)) ≤ f.factor n * √n * A := by
    rw [nX]; exact mul_le_mul_of_nonneg_left na (mul_nonneg sf q0)
  have nY' : norm2 n (g.exact n fun j => cval val (b j)) ≤ g.factor n * √n * B := by
    rw [nY]; exact mul_le_mul_of_nonneg_left nb (mul_nonneg sg q0)
  set X := fftOut (Xmm F) thr f.isInv f.mode n a with hX
  set Y := fftOut (Xmm F) thr g.isInv g.mode n b with hY
  have hW : ((errWeight2 n : ℕ):ℝ) ≤ 2 ^ 39 := by
    have := weight_lt hn
    exact_mod_cast (by omega : errWeight2 n ≤ 2 ^ 39)
  have W0 : (0:ℝ) ≤ (errWeight2 n : ℕ) := Nat.cast_nonneg _
  set W : ℝ := ((errWeight2 n : ℕ) : ℝ) with hWd
  obtain ⟨i1, i2⟩ := inner_range (n := n) h31 α1 α2 β1 β2
  have eF : f.factor n * √n * A * (g.factor n * √n * B) * (h.factor n * √n) =
      f.factor n * g.factor n * h.factor n * n * (√n * A * B) := by
    have : √(n:ℝ) * √n = n := Real.mul_self_sqrt (by positivity)
    calc _ = f.factor n * g.factor n * h.factor n * (√(n:ℝ) * √n) * (√n * A * B) := by ring
      _ = _ := by rw [this]
  set α := f.factor n * √n * A with hα
  set β := g.factor n * √n * B with hβ
  have α0 : 0 ≤ α := le_trans (by positivity) α1
  have β0 : 0 ≤ β := le_trans (by positivity) β1
  have κ1 : W / 2 ^ 52 ≤ 1 / 2 ^ 13 := by
    rw [div_le_iff₀ (by positivity)]
    norm_num
    norm_num at hW
    linarith
  have κ0 : 0 ≤ W / 2 ^ 52 := by positivity
  obtain ⟨fP, eP⟩ := prod_err hF (S := range n) (by rw [card_range]; exact_mod_cast h31) α1 α2 β1 β2 κ0
    (le_trans κ1 (by norm_num)) (fun t ht => fX t (mem_range.1 ht)) (fun t ht => fY t (mem_range.1 ht)) nX' nY' eX eY
  have αβ : 0 ≤ α * β := mul_nonneg α0 β0
  have nP : norm2 n (fun t => cval val (Cpx.mul (X t) (Y t))) ≤ 11 / 10 * (α * β) := by
    have t1 := nrm_add_le (A := range n)
      (v := fun t => cval val (Cpx.mul (X t) (Y t)) - f.exact n (fun j => cval val (a j)) t * g.exact n (fun j => cval val (b j)) t)
      (w := fun t => f.exact n (fun j => cval val (a j)) t * g.exact n (fun j => cval val (b j)) t)
    simp only [sub_add_cancel] at t1
    have t2 : nrm (range n) (fun t => f.exact n (fun j => cval val (a j)) t * g.exact n (fun j => cval val (b j)) t) ≤ α * β :=
      le_trans (nrm_mul_le α0 fun t ht => le_trans (norm_le_nrm ht) nX') (mul_le_mul_of_nonneg_left nY' α0)
    have t3 : ((2 + W / 2 ^ 52) * (W / 2 ^ 52) + 6 / 2 ^ 52) * (α * β) ≤ 1 / 10 * (α * β) := by
      refine mul_le_mul_of_nonneg_right ?_ αβ
      generalize W / 2 ^ 52 = κ at κ0 κ1
      have : (2 + κ) * κ ≤ (2 + 1 / 2 ^ 13) * (1 / 2 ^ 13) := mul_le_mul (by linarith) κ1 κ0 (by norm_num)
      norm_num at this ⊢
      linarith
    rw [norm2_eq]
    exact le_trans t1 (by linarith [le_trans eP t3])
  obtain ⟨fO, eO⟩ := fftOut_err2 hF i hn (A := 11 / 10 * (α * β)) i1
    (le_trans i2 (pow_le_pow_right₀ (by norm_num) (by norm_num))) (fun t ht => fP t (mem_range.2 ht)) nP thr h
  refine ⟨X, Y, fftOut (Xmm F) thr h.isInv h.mode n fun t => Cpx.mul (X t) (Y t), ?_, ?_, ?_, fO, ?_⟩
  · intro w x hx
    exact ⟨FFT.calls (es := [f]) hn hx, FFT.lifetime_noFail _ (by omega) _ (lenNat_calls _)⟩
  · intro w x hx
    exact ⟨FFT.calls (es := [g]) hn hx, FFT.lifetime_noFail _ (by omega) _ (lenNat_calls _)⟩
  · intro w x hx
    exact ⟨FFT.calls (es := [h]) hn hx, FFT.lifetime_noFail _ (by omega) _ (lenNat_calls _)⟩
  · have d1 := exact_norm2 (n := n) (by omega) h fun t =>
      cval val (Cpx.mul (X t) (Y t)) - f.exact n (fun j => cval val (a j)) t * g.exact n (fun j => cval val (b j)) t
    have d2 := nrm_add_le (A := range n)
      (v := fun t => cval val (fftOut (Xmm F) thr h.isInv h.mode n (fun t => Cpx.mul (X t) (Y t)) t) -
        h.exact n (fun t => cval val (Cpx.mul (X t) (Y t))) t)
      (w := h.exact n fun t => cval val (Cpx.mul (X t) (Y t)) - f.exact n (fun j => cval val (a j)) t * g.exact n (fun j => cval val (b j)) t)
    rw [norm2_eq] at d1 eO ⊢
    rw [nrm_congr (w := fun t => cval val (fftOut (Xmm F) thr h.isInv h.mode n (fun t => Cpx.mul (X t) (Y t)) t) -
        h.exact n (fun t => cval val (Cpx.mul (X t) (Y t))) t +
        h.exact n (fun t => cval val (Cpx.mul (X t) (Y t)) - f.exact n (fun j => cval val (a j)) t * g.exact n (fun j => cval val (b j)) t) t)
      fun t ht => by
        rw [← exact_conv hf hg hh _ _ (mem_range.1 ht), ← exact_diff]
        ring]
    refine le_trans d2 ?_
    rw [d1, norm2_eq, ← eF]
    have hq : 0 ≤ h.factor n * √n := mul_nonneg sh q0
    have e1 := mul_le_mul_of_nonneg_left eP hq
    have : W / 2 ^ 52 * (h.factor n * √n * (11 / 10 * (α * β))) + h.factor n * √n * (((2 + W / 2 ^ 52) * (W / 2 ^ 52) + 6 / 2 ^ 52) * (α * β)) ≤
        (4 * W + 6) / 2 ^ 52 * (α * β * (h.factor n * √n)) := by
      have e2 : (4 * W + 6) / 2 ^ 52 = 4 * (W / 2 ^ 52) + 6 / 2 ^ 52 := by ring
      rw [e2]
      generalize W / 2 ^ 52 = κ at κ0 κ1
      have hz : 0 ≤ α * β * (h.factor n * √n) := mul_nonneg αβ hq
      generalize (6:ℝ) / 2 ^ 52 = s
      have : κ * (11 / 10 + 2 + κ) ≤ κ * 4 := mul_le_mul_of_nonneg_left (by norm_num at κ1; linarith) κ0
      have := mul_le_mul_of_nonneg_right this hz
      nlinarith
    exact le_trans (add_le_add eO e1) this

include hF in
/-- C63: exact convolution of integers. The real parts of `a` and `b` are integers, the imaginary parts are 0. If
`(4 errWeight2 n + 6) · 2⁻⁵² · √n A B < 1/2`, then the real parts of the result of any three entry points whose normalisations
cancel (`fwd0, fwd0, invn`, or `fwd0, fwd, inv`, or `fwdu, fwdu, inv0`, …), rounded to the nearest integer, are exactly the circular
convolution of the integers. -/
theorem C63_integers (i : Target) (thr : Thr) {n : ℕ} (hn : ValidLen n) {a b : ℕ → Xmm F} {p q : ℕ → ℤ} {A B : ℝ}
    (hA : 1 ≤ A) (hB : 1 ≤ B)
    (fa : ∀ t < n, cfin fin (a t)) (fb : ∀ t < n, cfin fin (b t))
    (ea : ∀ t < n, cval val (a t) = p t) (eb : ∀ t < n, cval val (b t) = q t)
    (na : ∑ t ∈ range n, p t ^ 2 ≤ A ^ 2) (nb : ∑ t ∈ range n, q t ^ 2 ≤ B ^ 2)
    (hlt : (4 * errWeight2 n + 6) / 2 ^ 52 * (√n * A * B) < 1 / 2)
    {f g h : Entry} (hf : f ∈ [Entry.fwd, .fwd0, .fwdu, .fwdn]) (hg : g ∈ [Entry.fwd, .fwd0, .fwdu, .fwdn])
    (hh : h ∈ [Entry.inv, .inv0, .invu, .invn]) (hone : f.factor n * g.factor n * h.factor n * n = 1) :
    letI := i.arith F
    ∃ X Y out : ℕ → Xmm F,
      (∀ w x, UserArray w x n a → Computes (complexFFT (Xmm F) thr) n [(f, x)] w x n X) ∧
      (∀ w x, UserArray w x n b → Computes (complexFFT (Xmm F) thr) n [(g, x)] w x n Y) ∧
      (∀ w x, UserArray w x n (fun k => Cpx.mul (X k) (Y k)) → Computes (complexFFT (Xmm F) thr) n [(h, x)] w x n out) ∧
      ∀ t < n, cfin fin (out t) ∧ round (val (out t 0)) = ∑ j ∈ range n, p j * q ((t + n - j) % n) := by
  letI := i.arith F
  have h2 := hn.two
  have q1 : 1 ≤ √(n:ℝ) := by rw [Real.one_le_sqrt]; exact_mod_cast (by omega : 1 ≤ n)
  -- the bounds on `A` and `B` that the general theorem asks for follow
  have hAB : √(n:ℝ) * A * B ≤ 2 ^ 52 := by
    have h6 : (6:ℝ) ≤ 4 * errWeight2 n + 6 := by
      have : (0:ℝ) ≤ errWeight2 n := Nat.cast_nonneg _
      linarith
    by_contra hc
    push Not at hc
    have : (6:ℝ) / 2 ^ 52 * 2 ^ 52 ≤ (4 * errWeight2 n + 6) / 2 ^ 52 * (√n * A * B) :=
      mul_le_mul (div_le_div_of_nonneg_right h6 (by positivity)) hc.le (by positivity) (by positivity)
    rw [div_mul_cancel₀ _ (by positivity)] at this
    linarith
  have up : (2:ℝ) ^ 52 ≤ 2 ^ 400 := pow_le_pow_right₀ (by norm_num) (by norm_num)
  have lo : (1:ℝ) / 2 ^ 400 ≤ 1 := div_le_one_of_le₀ (one_le_pow₀ (by norm_num)) (by positivity)
  have A0 : 0 ≤ A := by linarith
  have B0 : 0 ≤ B := by linarith
  have uA : A ≤ 2 ^ 400 := by
    refine le_trans ?_ (le_trans hAB up)
    calc A = 1 * A * 1 := by ring
      _ ≤ √n * A * B := mul_le_mul (mul_le_mul_of_nonneg_right q1 A0) hB (by norm_num) (by positivity)
  have uB : B ≤ 2 ^ 400 := by
    refine le_trans ?_ (le_trans hAB up)
    calc B = 1 * 1 * B := by ring
      _ ≤ √n * A * B := mul_le_mul_of_nonneg_right (mul_le_mul q1 hA (by norm_num) (by positivity)) B0
  have nrm_int : ∀ {v : ℕ → Xmm F} {z : ℕ → ℤ} {M : ℝ}, 0 ≤ M → (∀ t < n, cval val (v t) = z t) →
      ((∑ t ∈ range n, z t ^ 2 : ℤ) : ℝ) ≤ M ^ 2 → norm2 n (fun t => cval val (v t)) ≤ M := by
    intro v z M hM hv hz
    rw [norm2_eq, nrm_le hM]
    refine le_trans (le_of_eq ?_) hz
    push_cast
    exact sum_congr rfl fun t ht => by
      rw [hv t (mem_range.1 ht), Complex.norm_intCast, sq_abs]
  obtain ⟨X, Y, out, c1, c2, c3, fo, eo⟩ := C63_convolution hF i thr hn (le_trans lo hA) uA (le_trans lo hB) uB fa fb
    (nrm_int A0 ea (by exact_mod_cast na)) (nrm_int B0 eb (by exact_mod_cast nb)) hf hg hh
  refine ⟨X, Y, out, c1, c2, c3, fun t ht => ⟨fo t ht, ?_⟩⟩
  rw [hone, Complex.ofReal_one, one_mul] at eo
  have e1 := le_trans (norm_le_nrm (A := range n) (v := fun t => cval val (out t) - 1 *
    Spec.conv n (fun j => cval val (a j)) (fun j => cval val (b j)) t) (mem_range.2 ht)) eo
  have ec : Spec.conv n (fun j => cval val (a j)) (fun j => cval val (b j)) t =
      ((∑ j ∈ range n, p j * q ((t + n - j) % n) : ℤ) : ℂ) := by
    unfold Spec.conv
    push_cast
    exact sum_congr rfl fun j hj => by rw [ea j (mem_range.1 hj), eb _ (Nat.mod_lt _ (by omega))]
  rw [one_mul, ec] at e1
  have e2 := lt_of_le_of_lt (le_trans (Complex.abs_re_le_norm _) e1) hlt
  rw [Complex.sub_re, Complex.intCast_re] at e2
  have e3 : |val (out t 0) - ((∑ j ∈ range n, p j * q ((t + n - j) % n) : ℤ) : ℝ)| < 1 / 2 := e2
  rw [abs_lt] at e3
  rw [round_eq, Int.floor_eq_iff]
  constructor <;> linarith

end

/-- Multiplication of two numbers of a million (2^20) decimal digits: with any digits, in double precision, the coefficients of the
product are exact. -/
example (thr : Thr) (p q : ℕ → ℤ) (hp : ∀ t, 0 ≤ p t ∧ p t ≤ 9) (hq : ∀ t, 0 ≤ q t ∧ q t ≤ 9)
    (zp : ∀ t, 2 ^ 20 ≤ t → p t = 0) (zq : ∀ t, 2 ^ 20 ≤ t → q t = 0) : letI := (⟨true, true, false, true, false⟩ : Target).arith R53
    ∃ X Y out : ℕ → Xmm R53,
      (∀ w x, UserArray w x (2 ^ 21) (fun t => ![⟨p t⟩, ⟨0⟩]) → Computes (complexFFT (Xmm R53) thr) (2 ^ 21) [(.fwd0, x)] w x (2 ^ 21) X) ∧
      (∀ w x, UserArray w x (2 ^ 21) (fun t => ![⟨q t⟩, ⟨0⟩]) → Computes (complexFFT (Xmm R53) thr) (2 ^ 21) [(.fwd0, x)] w x (2 ^ 21) Y) ∧
      (∀ w x, UserArray w x (2 ^ 21) (fun k => Cpx.mul (X k) (Y k)) → Computes (complexFFT (Xmm R53) thr) (2 ^ 21) [(.invn, x)] w x (2 ^ 21) out) ∧
      ∀ t < 2 ^ 21, cfin (fun _ => True) (out t) ∧ round (out t 0).val = ∑ j ∈ range (2 ^ 21), p j * q ((t + 2 ^ 21 - j) % 2 ^ 21) := by
  have sq : ∀ z : ℕ → ℤ, (∀ t, 0 ≤ z t ∧ z t ≤ 9) → (∀ t, 2 ^ 20 ≤ t → z t = 0) → ((∑ t ∈ range (2 ^ 21), z t ^ 2 : ℤ) : ℝ) ≤ (2 ^ 10 * 9) ^ 2 := by
    intro z hz z0
    have h1 : ∑ t ∈ range (2 ^ 21), z t ^ 2 = ∑ t ∈ range (2 ^ 20), z t ^ 2 := by
      refine (sum_subset (range_subset_range.2 (by norm_num)) fun t _ ht => ?_).symm
      rw [z0 t (by simpa using ht)]; rfl
    have h2 : ∑ t ∈ range (2 ^ 20), z t ^ 2 ≤ ∑ _t ∈ range (2 ^ 20), (81 : ℤ) := sum_le_sum fun t _ => by nlinarith [hz t]
    rw [sum_const, Finset.card_range, nsmul_eq_mul] at h2
    rw [h1]
    have : ((∑ t ∈ range (2 ^ 20), z t ^ 2 : ℤ) : ℝ) ≤ (((2 ^ 20 : ℕ) : ℤ) * 81 : ℤ) := Int.cast_le.2 h2
    refine le_trans this ?_
    norm_num
  refine C63_integers rounded_laws ⟨true, true, false, true, false⟩ thr (validLen_pow 21 (by norm_num) (by norm_num)) (f := .fwd0) (g := .fwd0) (h := .invn) (p := p) (q := q)
    (A := 2 ^ 10 * 9) (B := 2 ^ 10 * 9) (by norm_num) (by norm_num) (fun _ _ => ⟨trivial, trivial⟩) (fun _ _ => ⟨trivial, trivial⟩)
    (fun t _ => ?_) (fun t _ => ?_) (sq p hp zp) (sq q hq zq) ?_ (by simp) (by simp) (by simp) (by simp [Entry.factor])
  · apply Complex.ext <;> simp [cval]
  · apply Complex.ext <;> simp [cval]
  · rw [errWeight2_two_pow]
    have h1 : √((2 ^ 21 : ℕ) : ℝ) ≤ 1449 := by
      rw [Real.sqrt_le_left (by norm_num)]; norm_num
    norm_num at h1 ⊢
    linarith

end OTFFT.Props
