/-
C68: convolution of real signals through the real transforms: the value, the accuracy in double precision, exact products of integer
polynomials; convolution of any length through Bluestein's algorithm.
-/
import Verif.Props.Convolution
import Verif.Props.AccuracyRmsReal
import Verif.Props.Bluestein
import Verif.Proof.Newton
import Mathlib.Algebra.Polynomial.BigOperators
import Mathlib.Algebra.Polynomial.Degree.Operations

namespace OTFFT.Props

open Finset

/-! ### values -/

theorem conv_ofReal (n : ℕ) (a b : ℕ → ℝ) :
    Spec.conv n (Spec.ofReal a) (Spec.ofReal b) = Spec.ofReal fun t => ∑ j ∈ range n, a j * b ((t + n - j) % n) := by
  funext t
  simp only [Spec.conv, Spec.ofReal]
  push_cast
  rfl

theorem herm_mul {n : ℕ} {X Y : ℕ → ℂ} (hX : Spec.Hermitian n X) (hY : Spec.Hermitian n Y) : Spec.Hermitian n fun k => X k * Y k :=
  fun k hk => by beta_reduce; rw [hX k hk, hY k hk, map_mul]

/-- C68: transform the real signals `a` and `b` with `fwd0` of the real transform, multiply the first `n/2+1` entries of the results, apply
`invn`: the circular convolution of `a` and `b`. -/
theorem C68_real (thr : Thr) {n : ℕ} (hn : RealLen n) (a b : ℕ → ℝ) :
    ∃ A B : ℕ → ℂ,
      (∀ w x y, FwdArgs w n x y a → Computes (realFFT ℂ thr) n [(.fwd0, x, y)] w y n A) ∧
      (∀ w x y, FwdArgs w n x y b → Computes (realFFT ℂ thr) n [(.fwd0, x, y)] w y n B) ∧
      (∀ w x y, w.WF → Arr w.heap x (n / 2 + 1) (fun k => A k * B k) → Alloc w.heap x n → Alloc w.heap y n → Sep x n y n →
        ComputesIn (realFFT ℂ thr) n [(.invn, x, y)] w (Region x n) y n
          (Spec.ofReal fun t => ∑ j ∈ range n, a j * b ((t + n - j) % n))) := by
  have hH : ∀ r : ℕ → ℝ, Spec.Hermitian n (Spec.dft n (Spec.ofReal r)) := fun r => by
    simpa using hermitian_dft 1 (map_one _) r hn.pos
  have h0 : (n : ℂ) ≠ 0 := by exact_mod_cast hn.pos.ne'
  refine ⟨Spec.dft n (Spec.ofReal a), Spec.dft n (Spec.ofReal b), fun w x y h => C15_fwd0 thr h, fun w x y h => C15_fwd0 thr h, ?_⟩
  intro w x y wf hx ax ay s
  refine ComputesIn.congr (C16_inverse thr ⟨wf, hn, herm_mul (hH a) (hH b), hx, ax, ay, s⟩).2.2.2 fun t ht => ?_
  rw [conv_inv _ _ ht, conv_ofReal]
  field_simp

/-- C68: the same for complex signals of any length up to `2^29` with Bluestein's algorithm -/
theorem C68_bluestein (thr : Thr) {n : ℕ} (h1 : 1 ≤ n) (h29 : n ≤ 2 ^ 29) (a b : ℕ → ℂ) :
    ∃ A B : ℕ → ℂ,
      (∀ w x, UserArray w x n a → Computes (bluesteinFFT ℂ thr) n [(.fwd0, x)] w x n A) ∧
      (∀ w x, UserArray w x n b → Computes (bluesteinFFT ℂ thr) n [(.fwd0, x)] w x n B) ∧
      (∀ w x, UserArray w x n (fun k => A k * B k) →
        Computes (bluesteinFFT ℂ thr) n [(.invn, x)] w x n (Spec.conv n a b)) := by
  have h0 : (n : ℂ) ≠ 0 := by exact_mod_cast (by omega : n ≠ 0)
  refine ⟨Spec.dft n a, Spec.dft n b, fun w x h => (C22_forward thr h1 h29 h).1, fun w x h => (C22_forward thr h1 h29 h).1, ?_⟩
  intro w x h
  obtain ⟨c1, c2⟩ := (C22_inverse thr h1 h29 h).2.2.1
  refine ⟨Act.wp_mono c1 ?_, c2⟩
  rintro ok w' ⟨p, q, r⟩
  refine ⟨p, fun hok => ⟨(q hok).1.congr fun t ht => ?_, (q hok).2⟩, r⟩
  rw [conv_inv _ _ ht]
  field_simp

/-! ### double precision -/

/-- the index in the first half that stands for `t` -/
def foldIdx (n t : ℕ) : ℕ := if t ≤ n / 2 then t else n - t

theorem foldIdx_le {n t : ℕ} : foldIdx n t ≤ n / 2 := by unfold foldIdx; split <;> omega

section
variable {F : Type} [FArith F] [Inhabited F] {val : F → ℝ} {fin : F → Prop} (hF : Binary64 F val fin)

/-- conjugate symmetric continuation of the first half -/
noncomputable def hermExt (n : ℕ) (v : ℕ → ℂ) (t : ℕ) : ℂ := if t ≤ n / 2 then v t else (starRingEnd ℂ) (v (n - t))

theorem hermExt_herm {n : ℕ} {v : ℕ → ℂ} (h0 : (v 0).im = 0) (h1 : 2 ≤ n → (v (n / 2)).im = 0) :
    Spec.Hermitian n (hermExt n v) := by
  intro k hk
  unfold hermExt
  rcases Nat.eq_zero_or_pos k with rfl | hk0
  · rw [Nat.sub_zero, Nat.mod_self, if_pos (Nat.zero_le _)]
    exact (Complex.conj_eq_iff_im.2 h0).symm
  · rw [Nat.mod_eq_of_lt (by omega)]
    rcases Nat.lt_trichotomy (2 * k) n with h | h | h
    · rw [if_neg (by omega), if_pos (by omega), show n - (n - k) = k by omega]
    · rw [if_pos (by omega), if_pos (by omega), show n - k = k by omega]
      have := h1 (by omega)
      rw [show n / 2 = k by omega] at this
      exact (Complex.conj_eq_iff_im.2 this).symm
    · by_cases h3 : k ≤ n / 2
      · omega
      · rw [if_pos (by omega), if_neg h3, Complex.conj_conj]

theorem fold_norm {n : ℕ} {X : ℕ → ℂ} (hX : Herm n X) {E : ℕ → ℂ} (hE : Herm n E) {t : ℕ} (ht : t < n) :
    ‖X (foldIdx n t) - E (foldIdx n t)‖ = ‖X t - E t‖ := by
  unfold foldIdx
  split
  · rfl
  · rename_i h
    rw [hX.2 t (by omega) ht, hE.2 t (by omega) ht, ← map_sub, Complex.norm_conj]

theorem fold_norm1 {n : ℕ} {X : ℕ → ℂ} (hX : Herm n X) {t : ℕ} (ht : t < n) : ‖X (foldIdx n t)‖ = ‖X t‖ := by
  unfold foldIdx
  split
  · rfl
  · rename_i h
    rw [hX.2 t (by omega) ht, Complex.norm_conj]

theorem exact_herm {n : ℕ} (hpos : 0 < n) {f : Entry} (hf : f ∈ [Entry.fwd, .fwd0, .fwdu, .fwdn]) (r : ℕ → ℝ) :
    Herm n (f.exact n (Spec.ofReal r)) := by
  have e : f.exact n (Spec.ofReal r) = fun k => (f.factor n : ℂ) * Spec.dft n (Spec.ofReal r) k := by
    funext k
    simp only [List.mem_cons, List.not_mem_nil, or_false] at hf
    rcases hf with rfl | rfl | rfl | rfl <;> rfl
  rw [e]
  exact hermitian_facts (hermitian_dft _ (Complex.conj_ofReal _) r hpos) hpos

include hF in
/-- C68: in IEEE double precision everything is finite, and the result is the circular convolution of the real signals `a` and `b` times
the product of the normalisation factors, up to `(4 (errWeight2(n/2) + 336) + 6) · 2⁻⁵²` times `√n A B`, the largest value that
the 2-norm of the convolution can have. (`hz`: a product with a factor zero is zero, as in IEEE 754.) -/
theorem C68_accuracy (hz : ∀ p q, fin p → fin q → val p = 0 ∨ val q = 0 → val (fmul p q) = 0) (i : Target) (thr : Thr) {n : ℕ}
    (hn : RealLen n) {a b : ℕ → F} {A B : ℝ}
    (hA : 1 / 2 ^ 400 ≤ A) (hA' : A ≤ 2 ^ 400) (hB : 1 / 2 ^ 400 ≤ B) (hB' : B ≤ 2 ^ 400)
    (fa : ∀ t < n, fin (a t)) (fb : ∀ t < n, fin (b t))
    (na : norm2 n (Spec.ofReal fun t => val (a t)) ≤ A) (nb : norm2 n (Spec.ofReal fun t => val (b t)) ≤ B)
    {f g h : Entry} (hf : f ∈ [Entry.fwd, .fwd0, .fwdu, .fwdn]) (hg : g ∈ [Entry.fwd, .fwd0, .fwdu, .fwdn])
    (hh : h ∈ [Entry.inv, .inv0, .invu, .invn]) :
    letI := i.arith F
    ∃ (X Y : ℕ → Xmm F) (out : ℕ → F),
      (∀ w x y, w.WF → Arr w.heap x n (doubles a) → Alloc w.heap y n → Sep x n y n →
        Computes (realFFT (Xmm F) thr) n [(f, x, y)] w y n X) ∧
      (∀ w x y, w.WF → Arr w.heap x n (doubles b) → Alloc w.heap y n → Sep x n y n →
        Computes (realFFT (Xmm F) thr) n [(g, x, y)] w y n Y) ∧
      (∀ w x y, w.WF → Arr w.heap x (n / 2 + 1) (fun k => Cpx.mul (X k) (Y k)) → Alloc w.heap x n → Alloc w.heap y n → Sep x n y n →
        ComputesIn (realFFT (Xmm F) thr) n [(h, x, y)] w (Region x n) y n (doubles out)) ∧
      (∀ t < n, fin (out t)) ∧
      norm2 n (Spec.ofReal fun t => val (out t) - f.factor n * g.factor n * h.factor n * n *
          ∑ j ∈ range n, val (a j) * val (b ((t + n - j) % n))) ≤
        (4 * (errWeight2 (n / 2) + 336) + 6) / 2 ^ 52 * (f.factor n * g.factor n * h.factor n * n * (√n * A * B)) := by
  letI := i.arith F
  have hpos := hn.pos
  have h31 := RealLen.le31 hn
  have lo : (1:ℝ) / 2 ^ 960 ≤ 1 / 2 ^ 400 := one_div_le_one_div_of_le (by positivity) (pow_le_pow_right₀ (by norm_num) (by norm_num))
  have top : ∀ {A : ℝ}, 0 ≤ A → A ≤ 2 ^ 400 → √(n:ℝ) * A ≤ 2 ^ 1014 := fun {A} h0 hA => by
    refine le_trans (mul_le_mul (sqrt_le16 h31) hA h0 (by positivity)) ?_
    rw [← pow_add]
    exact pow_le_pow_right₀ (by norm_num) (by norm_num)
  have A0 : 0 ≤ A := le_trans (by positivity) hA
  have B0 : 0 ≤ B := le_trans (by positivity) hB
  obtain ⟨α1, α2⟩ := scaled_range hpos h31 f hA hA'
  obtain ⟨β1, β2⟩ := scaled_range hpos h31 g hB hB'
  obtain ⟨fX, eX⟩ := rfft_fwd_err hF i thr hn (le_trans lo hA) (top A0 hA') fa na f hf
  obtain ⟨fY, eY⟩ := rfft_fwd_err hF i thr hn (le_trans lo hB) (top B0 hB') fb nb g hg
  have nX := exact_norm2 (n := n) hpos f (Spec.ofReal fun j => val (a j))
  have nY := exact_norm2 (n := n) hpos g (Spec.ofReal fun j => val (b j))
  have sf := (ApLaws.scR_pos n f.mode hpos).le
  rw [factor_eq] at sf
  have sg := (ApLaws.scR_pos n g.mode hpos).le
  rw [factor_eq] at sg
  have sh := (ApLaws.scR_pos n h.mode hpos).le
  rw [factor_eq] at sh
  have q0 := Real.sqrt_nonneg (n:ℝ)
  have nX' : norm2 n (f.exact n (Spec.ofReal fun j => val (a j))) ≤ f.factor n * √n * A := by
    rw [nX]; exact mul_le_mul_of_nonneg_left na (mul_nonneg sf q0)
  have nY' : norm2 n (g.exact n (Spec.ofReal fun j => val (b j))) ≤ g.factor n * √n * B := by
    rw [nY]; exact mul_le_mul_of_nonneg_left nb (mul_nonneg sg q0)
  have HX := computed_herm (thr := thr) hF i hn (isInv_fwd hf) fX
  have HY := computed_herm (thr := thr) hF i hn (isInv_fwd hg) fY
  have HE := exact_herm hpos hf fun j => val (a j)
  have HG := exact_herm hpos hg fun j => val (b j)
  have MX := rfft_mirror i thr hn (isInv_fwd hf) (doubles a)
  have MY := rfft_mirror i thr hn (isInv_fwd hg) (doubles b)
  set X := rfftOut (Xmm F) thr f n (doubles a) with hX
  set Y := rfftOut (Xmm F) thr g n (doubles b) with hY
  set E := f.exact n (Spec.ofReal fun j => val (a j)) with hE
  set G := g.exact n (Spec.ofReal fun j => val (b j)) with hG
  have hW : ((errWeight2 (n / 2) : ℕ):ℝ) + 336 ≤ 2 ^ 39 := by
    have := half_weight2 hn
    exact_mod_cast (by omega : errWeight2 (n / 2) + 336 ≤ 2 ^ 39)
  have W0 : (0:ℝ) ≤ (errWeight2 (n / 2) : ℕ) + 336 := by positivity
  set W : ℝ := ((errWeight2 (n / 2) : ℕ) : ℝ) + 336 with hWd
  obtain ⟨i1, i2⟩ := inner_range (n := n) h31 α1 α2 β1 β2
  have eF : f.factor n * √n * A * (g.factor n * √n * B) * (h.factor n * √n) =
      f.factor n * g.factor n * h.factor n * n * (√n * A * B) := by
    have : √(n:ℝ) * √n = n := Real.mul_self_sqrt (by positivity)
    calc _ = f.factor n * g.factor n * h.factor n * (√(n:ℝ) * √n) * (√n * A * B) := by ring
      _ = _ := by rw [this]
  set α := f.factor n * √n * A with hα
  set β := g.factor n * √n * B with hβ
  have α0 : 0 ≤ α := le_trans (by positivity) α1
  have β0 : 0 ≤ β := le_trans (by positivity) β1
  have κ1 : W / 2 ^ 52 ≤ 1 / 2 ^ 13 := by
    rw [div_le_iff₀ (by positivity)]
    norm_num
    norm_num at hW
    linarith
  have κ0 : 0 ≤ W / 2 ^ 52 := by positivity
  have hlt : ∀ {t}, foldIdx n t < n := fun {t} => lt_of_le_of_lt foldIdx_le (Nat.div_lt_self hpos (by norm_num))
  obtain ⟨fP, eP⟩ := prod_err hF (S := range n) (X := fun t => E (foldIdx n t)) (Y := fun t => G (foldIdx n t))
    (X' := fun t => X (foldIdx n t)) (Y' := fun t => Y (foldIdx n t)) (by rw [card_range]; exact_mod_cast h31) α1 α2 β1 β2 κ0
    (le_trans κ1 (by norm_num)) (fun t _ => fX _ hlt) (fun t _ => fY _ hlt)
    (le_trans (nrm_mono fun t ht => (fold_norm1 HE (mem_range.1 ht)).le) nX')
    (le_trans (nrm_mono fun t ht => (fold_norm1 HG (mem_range.1 ht)).le) nY')
    (le_trans (nrm_mono fun t ht => (fold_norm HX HE (mem_range.1 ht)).le) eX)
    (le_trans (nrm_mono fun t ht => (fold_norm HY HG (mem_range.1 ht)).le) eY)
  have αβ : 0 ≤ α * β := mul_nonneg α0 β0
  -- the conjugate symmetric vector of which the products are the first half
  set P := hermExt n fun t => cval val (Cpx.mul (X t) (Y t)) with hP
  have z0 := hF.ofNat 0 (by norm_num)
  have zim : ∀ {p q : Xmm F}, cfin fin p → cfin fin q → p 1 = fofNat 0 → q 1 = fofNat 0 → (cval val (Cpx.mul p q)).im = 0 := by
    intro p q hp hq e1 e2
    have v0 : val (fofNat 0 : F) = 0 := by rw [z0.2]; simp
    have t1 := hz (p 0) (q 1) hp.1 hq.2 (Or.inr (by rw [e2]; exact v0))
    have t2 := hz (p 1) (q 0) hp.2 hq.1 (Or.inl (by rw [e1]; exact v0))
    have b1 := hF.mul (p 0) (q 1) hp.1 hq.2 (by rw [e2, v0, mul_zero, abs_zero]; positivity)
    have b2 := hF.mul (p 1) (q 0) hp.2 hq.1 (by rw [e1, v0, zero_mul, abs_zero]; positivity)
    have b3 := hF.add _ _ b1.1 b2.1 (by rw [t1, t2, add_zero, abs_zero]; positivity)
    have := b3.2
    rw [t1, t2, add_zero, abs_zero, mul_zero, sub_zero] at this
    exact abs_nonpos_iff.1 this
  have HP : Spec.Hermitian n P := hermExt_herm (zim (fX 0 hpos) (fY 0 hpos) MX.2.1 MY.2.1)
    fun h2 => zim (fX _ (by omega)) (fY _ (by omega)) (MX.2.2 h2) (MY.2.2 h2)
  have dP : nrm (range n) (fun t => P t - E t * G t) ≤ ((2 + W / 2 ^ 52) * (W / 2 ^ 52) + 6 / 2 ^ 52) * (α * β) := by
    refine le_trans (nrm_mono fun t ht => ?_) eP
    have ht := mem_range.1 ht
    rw [hP]
    unfold hermExt foldIdx
    beta_reduce
    split
    · exact le_rfl
    · rename_i hc
      have e1 := HE.2 (n - t) (by omega) (by omega)
      have e2 := HG.2 (n - t) (by omega) (by omega)
      rw [show n - (n - t) = t by omega] at e1 e2
      rw [e1, e2, ← map_mul, ← map_sub, Complex.norm_conj]
  have nP : norm2 n P ≤ 11 / 10 * (α * β) := by
    have t1 := nrm_add_le (A := range n) (v := fun t => P t - E t * G t) (w := fun t => E t * G t)
    simp only [sub_add_cancel] at t1
    have t2 : nrm (range n) (fun t => E t * G t) ≤ α * β :=
      le_trans (nrm_mul_le α0 fun t ht => le_trans (norm_le_nrm ht) nX') (mul_le_mul_of_nonneg_left nY' α0)
    have t3 : ((2 + W / 2 ^ 52) * (W / 2 ^ 52) + 6 / 2 ^ 52) * (α * β) ≤ 1 / 10 * (α * β) := by
      refine mul_le_mul_of_nonneg_right ?_ αβ
      generalize W / 2 ^ 52 = κ at κ0 κ1
      have : (2 + κ) * κ ≤ (2 + 1 / 2 ^ 13) * (1 / 2 ^ 13) := mul_le_mul (by linarith) κ1 κ0 (by norm_num)
      norm_num at this ⊢
      linarith
    rw [norm2_eq]
    exact le_trans t1 (by linarith [le_trans dP t3])
  have fP' : ∀ t ≤ n / 2, cfin fin (Cpx.mul (X t) (Y t)) := fun t ht => by
    have := fP t (mem_range.2 (by omega))
    unfold foldIdx at this
    rwa [if_pos ht] at this
  obtain ⟨fO, eO⟩ := rfft_inv_err hF i thr hn (A := 11 / 10 * (α * β)) i1 i2 fP' HP
    (fun t ht => by rw [hP]; unfold hermExt; rw [if_pos ht]) nP h hh
  refine ⟨X, Y, fun t => rfftOut (Xmm F) thr h n (mirror n fun t => Cpx.mul (X t) (Y t)) t 0, ?_, ?_, ?_, fO, ?_⟩
  · intro w x y wf hx hy s
    have hi := isInv_fwd hf
    have a' : RealArgs w f n x y (doubles a) := ⟨wf, hn, by rw [rfftNeed, hi]; exact hx, hx.alloc, hy, s⟩
    exact ComputesIn.toComputes (RFFT.computes (thr := thr) a') (by rw [rfftDirty, hi]; exact le_refl _) (fun _ _ => rfl)
  · intro w x y wf hx hy s
    have hi := isInv_fwd hg
    have a' : RealArgs w g n x y (doubles b) := ⟨wf, hn, by rw [rfftNeed, hi]; exact hx, hx.alloc, hy, s⟩
    exact ComputesIn.toComputes (RFFT.computes (thr := thr) a') (by rw [rfftDirty, hi]; exact le_refl _) (fun _ _ => rfl)
  · intro w x y wf hx hx' hy s
    exact rfft_inv_computes i thr hn wf hx hx' hy s h hh
  · have d1 := exact_norm2 (n := n) hpos h fun t => P t - E t * G t
    have d2 := nrm_add_le (A := range n)
      (v := fun t => (val (rfftOut (Xmm F) thr h n (mirror n fun t => Cpx.mul (X t) (Y t)) t 0) : ℂ) - h.exact n P t)
      (w := h.exact n fun t => P t - E t * G t)
    rw [norm2_eq] at d1 eO ⊢
    rw [nrm_congr (w := fun t => (val (rfftOut (Xmm F) thr h n (mirror n fun t => Cpx.mul (X t) (Y t)) t 0) : ℂ) - h.exact n P t +
        h.exact n (fun t => P t - E t * G t) t)
      fun t ht => by
        rw [← exact_diff, hE, hG, exact_conv hf hg hh _ _ (mem_range.1 ht), conv_ofReal]
        simp only [Spec.ofReal]
        push_cast
        ring]
    refine le_trans d2 ?_
    rw [d1, norm2_eq, ← eF]
    have hq : 0 ≤ h.factor n * √n := mul_nonneg sh q0
    have e1 := mul_le_mul_of_nonneg_left dP hq
    have : W / 2 ^ 52 * (h.factor n * √n * (11 / 10 * (α * β))) + h.factor n * √n * (((2 + W / 2 ^ 52) * (W / 2 ^ 52) + 6 / 2 ^ 52) * (α * β)) ≤
        (4 * W + 6) / 2 ^ 52 * (α * β * (h.factor n * √n)) := by
      have e2 : (4 * W + 6) / 2 ^ 52 = 4 * (W / 2 ^ 52) + 6 / 2 ^ 52 := by ring
      rw [e2]
      generalize W / 2 ^ 52 = κ at κ0 κ1
      have hz : 0 ≤ α * β * (h.factor n * √n) := mul_nonneg αβ hq
      generalize (6:ℝ) / 2 ^ 52 = s
      have : κ * (11 / 10 + 2 + κ) ≤ κ * 4 := mul_le_mul_of_nonneg_left (by norm_num at κ1; linarith) κ0
      have := mul_le_mul_of_nonneg_right this hz
      nlinarith
    exact le_trans (add_le_add eO e1) this

include hF in
/-- C68: exact convolution of real integer signals. If `(4 (errWeight2(n/2) + 336) + 6) · 2⁻⁵² · √n A B < 1/2`, then the result of any three
entry points whose normalisations cancel, rounded to the nearest integer, is exactly the circular convolution. -/
theorem C68_integers (hz : ∀ p q, fin p → fin q → val p = 0 ∨ val q = 0 → val (fmul p q) = 0) (i : Target) (thr : Thr) {n : ℕ}
    (hn : RealLen n) {a b : ℕ → F} {p q : ℕ → ℤ} {A B : ℝ} (hA : 1 ≤ A) (hB : 1 ≤ B)
    (fa : ∀ t < n, fin (a t)) (fb : ∀ t < n, fin (b t)) (ea : ∀ t < n, val (a t) = p t) (eb : ∀ t < n, val (b t) = q t)
    (na : ∑ t ∈ range n, p t ^ 2 ≤ A ^ 2) (nb : ∑ t ∈ range n, q t ^ 2 ≤ B ^ 2)
    (hlt : (4 * (errWeight2 (n / 2) + 336) + 6) / 2 ^ 52 * (√n * A * B) < 1 / 2)
    {f g h : Entry} (hf : f ∈ [Entry.fwd, .fwd0, .fwdu, .fwdn]) (hg : g ∈ [Entry.fwd, .fwd0, .fwdu, .fwdn])
    (hh : h ∈ [Entry.inv, .inv0, .invu, .invn]) (hone : f.factor n * g.factor n * h.factor n * n = 1) :
    letI := i.arith F
    ∃ (X Y : ℕ → Xmm F) (out : ℕ → F),
      (∀ w x y, w.WF → Arr w.heap x n (doubles a) → Alloc w.heap y n → Sep x n y n →
        Computes (realFFT (Xmm F) thr) n [(f, x, y)] w y n X) ∧
      (∀ w x y, w.WF → Arr w.heap x n (doubles b) → Alloc w.heap y n → Sep x n y n →
        Computes (realFFT (Xmm F) thr) n [(g, x, y)] w y n Y) ∧
      (∀ w x y, w.WF → Arr w.heap x (n / 2 + 1) (fun k => Cpx.mul (X k) (Y k)) → Alloc w.heap x n → Alloc w.heap y n → Sep x n y n →
        ComputesIn (realFFT (Xmm F) thr) n [(h, x, y)] w (Region x n) y n (doubles out)) ∧
      ∀ t < n, fin (out t) ∧ round (val (out t)) = ∑ j ∈ range n, p j * q ((t + n - j) % n) := by
  letI := i.arith F
  have hpos := hn.pos
  have q1 : 1 ≤ √(n:ℝ) := by rw [Real.one_le_sqrt]; exact_mod_cast hpos
  have hAB : √(n:ℝ) * A * B ≤ 2 ^ 52 := by
    have h6 : (6:ℝ) ≤ 4 * (errWeight2 (n / 2) + 336) + 6 := by
      have : (0:ℝ) ≤ errWeight2 (n / 2) := Nat.cast_nonneg _
      linarith
    by_contra hc
    push Not at hc
    have : (6:ℝ) / 2 ^ 52 * 2 ^ 52 ≤ (4 * (errWeight2 (n / 2) + 336) + 6) / 2 ^ 52 * (√n * A * B) :=
      mul_le_mul (div_le_div_of_nonneg_right h6 (by positivity)) hc.le (by positivity) (by positivity)
    rw [div_mul_cancel₀ _ (by positivity)] at this
    linarith
  have up : (2:ℝ) ^ 52 ≤ 2 ^ 400 := pow_le_pow_right₀ (by norm_num) (by norm_num)
  have lo : (1:ℝ) / 2 ^ 400 ≤ 1 := div_le_one_of_le₀ (one_le_pow₀ (by norm_num)) (by positivity)
  have A0 : 0 ≤ A := by linarith
  have B0 : 0 ≤ B := by linarith
  have uA : A ≤ 2 ^ 400 := by
    refine le_trans ?_ (le_trans hAB up)
    calc A = 1 * A * 1 := by ring
      _ ≤ √n * A * B := mul_le_mul (mul_le_mul_of_nonneg_right q1 A0) hB (by norm_num) (by positivity)
  have uB : B ≤ 2 ^ 400 := by
    refine le_trans ?_ (le_trans hAB up)
    calc B = 1 * 1 * B := by ring
      _ ≤ √n * A * B := mul_le_mul_of_nonneg_right (mul_le_mul q1 hA (by norm_num) (by positivity)) B0
  have nrm_int : ∀ {v : ℕ → F} {z : ℕ → ℤ} {M : ℝ}, 0 ≤ M → (∀ t < n, val (v t) = z t) →
      ((∑ t ∈ range n, z t ^ 2 : ℤ) : ℝ) ≤ M ^ 2 → norm2 n (Spec.ofReal fun t => val (v t)) ≤ M := by
    intro v z M hM hv hz
    rw [norm2_eq, nrm_le hM]
    refine le_trans (le_of_eq ?_) hz
    push_cast
    exact sum_congr rfl fun t ht => by
      rw [Spec.ofReal, hv t (mem_range.1 ht), Complex.norm_real, Real.norm_eq_abs, sq_abs]
  obtain ⟨X, Y, out, c1, c2, c3, fo, eo⟩ := C68_accuracy hF hz i thr hn (le_trans lo hA) uA (le_trans lo hB) uB fa fb
    (nrm_int A0 ea (by exact_mod_cast na)) (nrm_int B0 eb (by exact_mod_cast nb)) hf hg hh
  refine ⟨X, Y, out, c1, c2, c3, fun t ht => ⟨fo t ht, ?_⟩⟩
  rw [hone] at eo
  simp only [one_mul] at eo
  have e1 := le_trans (norm_le_nrm (A := range n) (v := Spec.ofReal fun t => val (out t) -
    ∑ j ∈ range n, val (a j) * val (b ((t + n - j) % n))) (mem_range.2 ht)) eo
  have ec : ∑ j ∈ range n, val (a j) * val (b ((t + n - j) % n)) = ((∑ j ∈ range n, p j * q ((t + n - j) % n) : ℤ) : ℝ) := by
    push_cast
    exact sum_congr rfl fun j hj => by rw [ea j (mem_range.1 hj), eb _ (Nat.mod_lt _ hpos)]
  rw [Spec.ofReal, ec, Complex.norm_real, Real.norm_eq_abs] at e1
  have e3 := lt_of_le_of_lt e1 hlt
  rw [abs_lt] at e3
  rw [round_eq, Int.floor_eq_iff]
  constructor <;> linarith

/-- a circular convolution that does not wrap around is a product of polynomials -/
theorem conv_coeff {n : ℕ} (P Q : Polynomial ℤ) (hd : P.natDegree + Q.natDegree < n) {t : ℕ} (ht : t < n) :
    ∑ j ∈ range n, P.coeff j * Q.coeff ((t + n - j) % n) = (P * Q).coeff t := by
  rw [Polynomial.coeff_mul, Finset.Nat.sum_antidiagonal_eq_sum_range_succ (fun a b => P.coeff a * Q.coeff b)]
  symm
  refine (sum_congr rfl fun j hj => ?_).trans (sum_subset (range_subset_range.2 ht) fun j hj hj' => ?_)
  · have := mem_range.1 hj
    rw [show t + n - j = (t - j) + n by omega, Nat.add_mod_right, Nat.mod_eq_of_lt (by omega)]
  · have h1 := mem_range.1 hj
    have h2 : t < j := by
      by_contra hc
      exact hj' (mem_range.2 (by omega))
    rw [Nat.mod_eq_of_lt (by omega)]
    by_cases h3 : P.natDegree < j
    · rw [Polynomial.coeff_eq_zero_of_natDegree_lt h3, zero_mul]
    · rw [Polynomial.coeff_eq_zero_of_natDegree_lt (p := Q) (by omega), mul_zero]

include hF in
/-- C68: exact multiplication of polynomials with integer coefficients: `a` and `b` hold the coefficients of `P` and `Q`, padded with zeros
to a length above the degree of `P * Q`. Then the rounded results are the coefficients of `P * Q`. -/
theorem C68_polynomials (hz : ∀ p q, fin p → fin q → val p = 0 ∨ val q = 0 → val (fmul p q) = 0) (i : Target) (thr : Thr) {n : ℕ}
    (hn : RealLen n) {a b : ℕ → F} {P Q : Polynomial ℤ} (hd : P.natDegree + Q.natDegree < n) {A B : ℝ} (hA : 1 ≤ A) (hB : 1 ≤ B)
    (fa : ∀ t < n, fin (a t)) (fb : ∀ t < n, fin (b t)) (ea : ∀ t < n, val (a t) = P.coeff t) (eb : ∀ t < n, val (b t) = Q.coeff t)
    (na : ∑ t ∈ range n, P.coeff t ^ 2 ≤ A ^ 2) (nb : ∑ t ∈ range n, Q.coeff t ^ 2 ≤ B ^ 2)
    (hlt : (4 * (errWeight2 (n / 2) + 336) + 6) / 2 ^ 52 * (√n * A * B) < 1 / 2) :
    letI := i.arith F
    ∃ (X Y : ℕ → Xmm F) (out : ℕ → F),
      (∀ w x y, w.WF → Arr w.heap x n (doubles a) → Alloc w.heap y n → Sep x n y n →
        Computes (realFFT (Xmm F) thr) n [(.fwd0, x, y)] w y n X) ∧
      (∀ w x y, w.WF → Arr w.heap x n (doubles b) → Alloc w.heap y n → Sep x n y n →
        Computes (realFFT (Xmm F) thr) n [(.fwd0, x, y)] w y n Y) ∧
      (∀ w x y, w.WF → Arr w.heap x (n / 2 + 1) (fun k => Cpx.mul (X k) (Y k)) → Alloc w.heap x n → Alloc w.heap y n → Sep x n y n →
        ComputesIn (realFFT (Xmm F) thr) n [(.invn, x, y)] w (Region x n) y n (doubles out)) ∧
      ∀ t < n, round (val (out t)) = (P * Q).coeff t := by
  have h0 : (n:ℝ) ≠ 0 := by exact_mod_cast hn.pos.ne'
  obtain ⟨X, Y, out, c1, c2, c3, e⟩ := C68_integers hF hz i thr hn (f := .fwd0) (g := .fwd0) (h := .invn) hA hB fa fb ea eb
    (by exact_mod_cast na) (by exact_mod_cast nb) hlt (by simp) (by simp) (by simp) (by simp [Entry.factor, h0])
  exact ⟨X, Y, out, c1, c2, c3, fun t ht => (e t ht).2.trans (conv_coeff P Q hd ht)⟩

end

/-! ### the hypotheses are met -/

theorem r53_mul_zero (p q : R53) (h : p.val = 0 ∨ q.val = 0) : (fmul p q).val = 0 := by
  show rnd53 (p.val * q.val) = 0
  rcases h with h | h <;> rw [h] <;> simp [rnd53_zero]

/-- multiplication of two numbers of half a million (2^19) decimal digits with transforms of length 2^20 -/
example (thr : Thr) (P Q : Polynomial ℤ) (hP : ∀ t, 0 ≤ P.coeff t ∧ P.coeff t ≤ 9) (hQ : ∀ t, 0 ≤ Q.coeff t ∧ Q.coeff t ≤ 9)
    (dP : P.natDegree < 2 ^ 19) (dQ : Q.natDegree < 2 ^ 19) : letI := (⟨true, true, true, true, false⟩ : Target).arith R53
    ∃ (X Y : ℕ → Xmm R53) (out : ℕ → R53),
      Computes (realFFT (Xmm R53) thr) (2 * 2 ^ 19) [(.fwd0, Ptr.base 1, Ptr.base 2)]
        (twoArrays (2 * 2 ^ 19) (doubles fun t => ⟨P.coeff t⟩)) (Ptr.base 2) (2 * 2 ^ 19) X ∧
      Computes (realFFT (Xmm R53) thr) (2 * 2 ^ 19) [(.fwd0, Ptr.base 1, Ptr.base 2)]
        (twoArrays (2 * 2 ^ 19) (doubles fun t => ⟨Q.coeff t⟩)) (Ptr.base 2) (2 * 2 ^ 19) Y ∧
      ComputesIn (realFFT (Xmm R53) thr) (2 * 2 ^ 19) [(.invn, Ptr.base 1, Ptr.base 2)]
        (twoArrays (2 * 2 ^ 19) fun k => Cpx.mul (X k) (Y k)) (Region (Ptr.base 1) (2 * 2 ^ 19)) (Ptr.base 2) (2 * 2 ^ 19) (doubles out) ∧
      ∀ t < 2 * 2 ^ 19, round (out t).val = (P * Q).coeff t := by
  have sq : ∀ z : Polynomial ℤ, (∀ t, 0 ≤ z.coeff t ∧ z.coeff t ≤ 9) → ((∑ t ∈ range (2 * 2 ^ 19), z.coeff t ^ 2 : ℤ) : ℝ) ≤ (2 ^ 10 * 9) ^ 2 := by
    intro z hz
    have h2 : ∑ t ∈ range (2 * 2 ^ 19), z.coeff t ^ 2 ≤ ∑ _t ∈ range (2 * 2 ^ 19), (81 : ℤ) := sum_le_sum fun t _ => by nlinarith [hz t]
    rw [sum_const, Finset.card_range, nsmul_eq_mul] at h2
    have : ((∑ t ∈ range (2 * 2 ^ 19), z.coeff t ^ 2 : ℤ) : ℝ) ≤ (((2 * 2 ^ 19 : ℕ) : ℤ) * 81 : ℤ) := Int.cast_le.2 h2
    refine le_trans this ?_
    norm_num
  have hal : ∀ v : ℕ → Xmm R53, Alloc (twoArrays (2 * 2 ^ 19) v).heap (Ptr.base 2) (2 * 2 ^ 19) := fun v i hi => by
    simp only [twoArrays, Ptr.base, Ptr.loc_add, Nat.zero_add, hi]; simp
  have hs : Sep (Ptr.base 1) (2 * 2 ^ 19) (Ptr.base 2) (2 * 2 ^ 19) := Sep.of_buf (by simp [Ptr.base]) _ _
  obtain ⟨X, Y, out, c1, c2, c3, e⟩ := C68_polynomials (a := fun t => ⟨P.coeff t⟩) (b := fun t => ⟨Q.coeff t⟩) rounded_laws (fun p q _ _ h => r53_mul_zero p q h)
    ⟨true, true, true, true, false⟩ thr (n := 2 * 2 ^ 19)
    (Or.inr ⟨2 ^ 19, rfl, validLen_pow 19 (by norm_num) (by norm_num), by norm_num⟩) (P := P) (Q := Q) (by omega)
    (A := 2 ^ 10 * 9) (B := 2 ^ 10 * 9) (by norm_num) (by norm_num) (fun _ _ => trivial) (fun _ _ => trivial)
    (fun t _ => rfl) (fun t _ => rfl) (by exact_mod_cast sq P hP) (by exact_mod_cast sq Q hQ) (by
      rw [show 2 * 2 ^ 19 / 2 = 2 ^ 19 by norm_num, errWeight2_two_pow]
      have h1 : √((2 * 2 ^ 19 : ℕ) : ℝ) ≤ 1024 := by
        rw [Real.sqrt_le_left (by norm_num)]; norm_num
      norm_num at h1 ⊢
      linarith)
  have ok := fun v : ℕ → Xmm R53 => twoArrays_ok (2 * 2 ^ 19) v
  exact ⟨X, Y, out, c1 _ _ _ (ok _).wf (ok _).arr (hal _) hs, c2 _ _ _ (ok _).wf (ok _).arr (hal _) hs,
    c3 _ _ _ (ok _).wf (fun t ht => (ok _).arr t (by omega)) (ok _).arr.alloc (hal _) hs, e⟩

/-- real convolution of length 12 and complex convolution of length 7 -/
example (thr : Thr) (a b : ℕ → ℝ) : ∃ A B : ℕ → ℂ, ComputesIn (realFFT ℂ thr) 12 [(.invn, Ptr.base 1, Ptr.base 2)]
    (twoArrays 12 fun k => A k * B k) (Region (Ptr.base 1) 12) (Ptr.base 2) 12
    (Spec.ofReal fun t => ∑ j ∈ range 12, a j * b ((t + 12 - j) % 12)) := by
  obtain ⟨A, B, -, -, h⟩ := C68_real thr (realLen_of_le (m := 6) (by omega) (by omega)) a b
  have ok := twoArrays_ok 12 fun k => A k * B k
  exact ⟨A, B, h _ _ _ ok.wf (fun t ht => ok.arr t (by omega)) ok.arr.alloc
    (fun i hi => by simp only [twoArrays, Ptr.base, Ptr.loc_add, Nat.zero_add, hi]; simp) (Sep.of_buf (by simp [Ptr.base]) _ _)⟩

example (thr : Thr) (a b : ℕ → ℂ) : ∃ A B : ℕ → ℂ, Computes (bluesteinFFT ℂ thr) 46349 [(.invn, Ptr.base 1)]
    (oneArray 46349 (fun k => A k * B k)) (Ptr.base 1) 46349 (Spec.conv 46349 a b) := by
  obtain ⟨A, B, _, _, h⟩ := C68_bluestein thr (n := 46349) (by omega) (by omega) a b
  exact ⟨A, B, h _ _ (oneArray_ok _ _)⟩

end OTFFT.Props
