/-
Error analysis in the 2-norm: Bluestein's algorithm.
-/
import Verif.Proof.L2Real
import Verif.Proof.ApBlue
import Verif.Proof.Product

namespace OTFFT

open Finset

/-! ### norms of the stages -/

theorem nrm_pad {n l : ℕ} (h : n ≤ l) (v : ℕ → ℂ) : nrm (range l) (fun t => if t < n then v t else 0) = nrm (range n) v := by
  unfold nrm
  congr 1
  rw [← sum_subset (range_subset_range.2 h) fun t _ ht => by rw [mem_range] at ht; simp [ht]]
  exact sum_congr rfl fun t ht => by beta_reduce; rw [if_pos (mem_range.1 ht)]

theorem blueA_norm {n : ℕ} (h1 : 1 ≤ n) (inv : Bool) (v : ℕ → ℂ) (t : ℕ) :
    ‖blueA ℂ n inv (blueTab ℂ n) v t‖ = ‖if t < n then v t else 0‖ := by
  rw [blueA_C h1]
  split
  · rw [norm_mul, norm_pow, om_norm, one_pow, mul_one]
  · rfl

theorem blueA_nrm {n l : ℕ} (h1 : 1 ≤ n) (hl : n ≤ l) (inv : Bool) (v : ℕ → ℂ) :
    nrm (range l) (blueA ℂ n inv (blueTab ℂ n) v) = nrm (range n) v := by
  rw [← nrm_pad hl]
  exact le_antisymm (nrm_mono fun t _ => (blueA_norm h1 inv v t).le) (nrm_mono fun t _ => (blueA_norm h1 inv v t).ge)

theorem blueA_sub {n : ℕ} (h1 : 1 ≤ n) (inv : Bool) (v w : ℕ → ℂ) (t : ℕ) :
    blueA ℂ n inv (blueTab ℂ n) v t - blueA ℂ n inv (blueTab ℂ n) w t = blueA ℂ n inv (blueTab ℂ n) (fun s => v s - w s) t := by
  rw [blueA_C h1, blueA_C h1, blueA_C h1]
  split
  · ring
  · ring

/-- the last multiplication -/
noncomputable def blueEnd (C : Type) {F : Type} [DArith F] [CArith F C] (n : ℕ) (inv : Bool) (z : ℕ → C) (t : ℕ) : C :=
  mulpz (z t) (cnjpz (blueX C n inv (blueTab C n) t))

theorem blueEnd_C {n : ℕ} (h1 : 1 ≤ n) (inv : Bool) (z : ℕ → ℂ) (t : ℕ) : blueEnd ℂ n inv z t = z t * om inv (2 * n) ^ (t * t) := by
  unfold blueEnd
  rw [blueX_C h1]
  show _ * (starRingEnd ℂ) _ = _
  rw [map_pow, om_conj, Bool.not_not]

theorem blueEnd_norm {n : ℕ} (h1 : 1 ≤ n) (inv : Bool) (z : ℕ → ℂ) (t : ℕ) : ‖blueEnd ℂ n inv z t‖ = ‖z t‖ := by
  rw [blueEnd_C h1, norm_mul, norm_pow, om_norm, one_pow, mul_one]

theorem blueEnd_sub {n : ℕ} (h1 : 1 ≤ n) (inv : Bool) (v w : ℕ → ℂ) (t : ℕ) :
    blueEnd ℂ n inv v t - blueEnd ℂ n inv w t = blueEnd ℂ n inv (fun s => v s - w s) t := by
  rw [blueEnd_C h1, blueEnd_C h1, blueEnd_C h1]
  ring

/-- the chirp that every vector is convolved with has entries of magnitude at most 1 -/
theorem blueB_norm {n l : ℕ} (h1 : 1 ≤ n) (inv : Bool) (t : ℕ) : ‖blueB ℂ n l inv (blueTab ℂ n) t‖ ≤ 1 := by
  unfold blueB
  split
  · rw [blueX_C h1, norm_pow, om_norm, one_pow]
  split
  · rw [blueX_C h1, norm_pow, om_norm, one_pow]
  · rw [ofD_C]; simp [fofNat]

namespace Flt.VAp
variable {F : Type} [FArith F] [CArith F (Xmm F)] {c : Flt F}
  {v : ℕ → ℂ} {v' : ℕ → Xmm F} {φ B f : ℝ} {k n l : ℕ} {thr : Thr} {mode : ScaleMode} {inv : Bool}

/-- multiplication by the chirp and padding -/
theorem blueIn (L : ApBlue (C := Xmm F) c.Ap c.m0 c.G) (h1 : 1 ≤ n) (h31 : n ≤ 2 ^ 31) (hl : n ≤ l)
    (hv : c.VAp (range n) v v' φ B k) (hφ : √l * c.m0 ≤ φ) (hG : 2 * B ≤ c.G) (hk : k + 17 ≤ c.K) :
    c.VAp (range l) (blueA ℂ n inv (blueTab ℂ n) v) (blueA (Xmm F) n inv (blueTab (Xmm F) n) v') φ B (k + 17) := by
  have h0 := c.m0_pos.le
  have := VAp.step (lam := 1) (k0 := 17) (q := 1) (S := blueA ℂ n inv (blueTab ℂ n)) (S' := blueA (Xmm F) n inv (blueTab (Xmm F) n))
    (Bs := range l) (M := fun t => ‖if t < n then c.cv (v' t) else 0‖ + c.m0) hv zero_le_one le_rfl
    (by rw [one_mul, nrm_congr fun t _ => blueA_sub h1 inv _ _ t, blueA_nrm h1 hl])
    (by rw [one_mul, blueA_nrm h1 hl])
    (fun t _ => by
      unfold blueA
      split
      · rename_i h; subst h
        rw [if_pos (by omega)]
        exact L.mono (ap_self (hv.fin 0 (mem_range.2 (by omega))) le_rfl) le_rfl (by omega)
      split
      · rename_i h
        exact L.mono (L.cmul_tw (ap_self (hv.fin t (mem_range.2 h)) le_rfl) (L.tab_ap h1 h31 (blueI1_lt h1 inv t))) le_rfl (by omega)
      · exact L.mono (L.zeroM le_rfl) (by simp) (by omega))
    (by
      have := nrm_shift (A := range l) (v := fun t => if t < n then c.cv (v' t) else 0) h0
      rw [card_range, nrm_pad hl] at this
      rw [Nat.cast_one, one_mul, one_mul]
      exact le_trans this (by linarith)) (by omega) (by push_cast; linarith)
  rwa [one_mul, one_mul, one_mul] at this

/-- the chirp -/
theorem blueChirp (L : ApBlue (C := Xmm F) c.Ap c.m0 c.G) (hK : 13 ≤ c.K) (h1 : 1 ≤ n) (h31 : n ≤ 2 ^ 31) :
    c.VAp (range l) (blueB ℂ n l inv (blueTab ℂ n)) (blueB (Xmm F) n l inv (blueTab (Xmm F) n)) (√l / 2) (3 / 2 * √l) 13 := by
  have hG : (1:ℝ) ≤ c.G := le_trans (by norm_num) L.G_ge
  have key := fun t => (L.B_ap (inv := inv) (N := n) h1 h31 l t).2 hG hK
  have hq := Real.sqrt_nonneg (l:ℝ)
  have hp := c.one_le_pow 13
  refine ⟨fun t _ => (key t).1, by positivity, ?_, ?_⟩
  · have : nrm (range l) (blueB ℂ n l inv (blueTab ℂ n)) ≤ nrm (range l) fun _ => (1:ℂ) :=
      nrm_mono fun t _ => by rw [norm_one]; exact blueB_norm h1 inv t
    rw [nrm_const, card_range, norm_one, mul_one] at this
    linarith
  · have : nrm (range l) (fun t => c.cv (blueB (Xmm F) n l inv (blueTab (Xmm F) n) t) - blueB ℂ n l inv (blueTab ℂ n) t) ≤
        nrm (range l) fun _ => (((1 + c.u) ^ 13 - 1 : ℝ) : ℂ) := nrm_mono fun t _ => by
      rw [Complex.norm_real, Real.norm_of_nonneg (by linarith)]
      have := (key t).2.2
      linarith
    rw [nrm_const, card_range, Complex.norm_real, Real.norm_of_nonneg (by linarith)] at this
    nlinarith

omit [CArith F (Xmm F)] in
theorem norm_computed (hv : c.VAp (range n) v v' φ B k) {t : ℕ} (ht : t ∈ range n) : ‖c.cv (v' t)‖ + φ ≤ (1 + c.u) ^ k * B := by
  have := hv.computed
  have := norm_le_nrm (v := fun t => c.cv (v' t)) ht
  linarith

/-- the product, entry by entry, of two computed vectors -/
theorem mul (L : ApBlue (C := Xmm F) c.Ap c.m0 c.G) {X Y : ℕ → ℂ} {X' Y' : ℕ → Xmm F} {φ₁ φ₂ B₁ B₂ : ℝ} {k₁ k₂ : ℕ}
    (hX : c.VAp (range l) X X' φ₁ B₁ k₁) (hY : c.VAp (range l) Y Y' φ₂ B₂ k₂) (h₁ : √l * c.m0 ≤ φ₁) (h₂ : 1 ≤ φ₂)
    (hG : 2 * B₁ * (2 * B₂) ≤ c.G) (hG₁ : 2 * B₁ ≤ c.G) (hG₂ : 2 * B₂ ≤ c.G) (hk : k₁ + k₂ + 4 ≤ c.K) :
    c.VAp (range l) (fun t => mulpz (X t) (Y t)) (fun t => mulpz (X' t) (Y' t)) (φ₁ * B₂) (B₁ * B₂) (k₁ + k₂ + 4) := by
  have b1 := hX.B0
  have b2 := hY.B0
  have p1 := c.one_le_pow k₁
  have p2 := c.one_le_pow k₂
  have p4 := c.one_le_pow 4
  have q1 := c.pow_le_two (k := k₁) (by omega)
  have q2 := c.pow_le_two (k := k₂) (by omega)
  have m0 := c.m0_pos.le
  set β := (1 + c.u) ^ k₂ * B₂ with hβ
  have β0 : 0 ≤ β := by positivity
  have β2 : β ≤ 2 * B₂ := mul_le_mul_of_nonneg_right q2 b2
  have B21 : 1 ≤ B₂ := le_trans h₂ (le_trans (le_add_of_nonneg_left nrm_nonneg) hY.le)
  have β1 : 1 ≤ β := by nlinarith
  have key : ∀ t ∈ range l, cfin c.fin (mulpz (X' t) (Y' t)) ∧
      ‖c.cv (mulpz (X' t) (Y' t)) - c.cv (X' t) * c.cv (Y' t)‖ ≤ (‖c.cv (X' t)‖ + c.m0) * β * ((1 + c.u) ^ 4 - 1) := by
    intro t ht
    have l1 : (1:ℝ) ≤ √l := by
      rw [Real.one_le_sqrt]
      exact_mod_cast (by have := mem_range.1 ht; omega : 1 ≤ l)
    have hmφ : c.m0 ≤ φ₁ := le_trans (by nlinarith) h₁
    have eX := hX.entry_le (by omega) hmφ ht
    have eY := hY.norm_computed ht
    have n0 := norm_nonneg (c.cv (X' t))
    have aX := ap_self (hX.fin t ht) (le_refl c.m0)
    have aY : c.Ap (c.cv (Y' t)) (Y' t) β 0 :=
      ⟨by have := L.m0_le; norm_num at this; linarith, fun _ _ => ⟨hY.fin t ht, by linarith, by simp⟩⟩
    have hp := L.mul aX aY (by linarith) (by linarith) (by nlinarith)
    obtain ⟨f, -, e⟩ := hp.2 (le_trans (mul_le_mul eX β2 β0 (by linarith)) hG) (by omega)
    exact ⟨f, e⟩
  refine ⟨fun t ht => (key t ht).1, mul_nonneg hX.phi0 b2, ?_, ?_⟩
  · have n1 : nrm (range l) (fun t => mulpz (X t) (Y t)) ≤ nrm (range l) X * nrm (range l) Y :=
      nrm_mul_le nrm_nonneg fun t ht => norm_le_nrm ht
    have := hX.le
    have := hY.le
    have y0 := nrm_nonneg (A := range l) (v := Y)
    have x0 := nrm_nonneg (A := range l) (v := X)
    have : nrm (range l) X * nrm (range l) Y ≤ (B₁ - φ₁) * B₂ := mul_le_mul (by linarith) (by linarith) y0 (by linarith)
    linarith
  · -- the roundings of the products
    have e1 : nrm (range l) (fun t => c.cv (mulpz (X' t) (Y' t)) - c.cv (X' t) * c.cv (Y' t)) ≤
        β * ((1 + c.u) ^ 4 - 1) * ((1 + c.u) ^ k₁ * B₁) := by
      have hz : 0 ≤ β * ((1 + c.u) ^ 4 - 1) := mul_nonneg β0 (by linarith)
      have h1 : nrm (range l) (fun t => c.cv (mulpz (X' t) (Y' t)) - c.cv (X' t) * c.cv (Y' t)) ≤
          nrm (range l) fun t => ((β * ((1 + c.u) ^ 4 - 1) : ℝ) : ℂ) * ((‖c.cv (X' t)‖ + c.m0 : ℝ) : ℂ) := nrm_mono fun t ht => by
        rw [norm_mul, Complex.norm_real, Complex.norm_real, Real.norm_of_nonneg hz, Real.norm_of_nonneg (by positivity)]
        exact le_trans (key t ht).2 (le_of_eq (by ring))
      rw [nrm_mul, Complex.norm_real, Real.norm_of_nonneg hz] at h1
      refine le_trans h1 (mul_le_mul_of_nonneg_left ?_ hz)
      have h2 := nrm_shift (A := range l) (v := fun t => c.cv (X' t)) m0
      rw [card_range] at h2
      linarith [hX.computed]
    have e2 : nrm (range l) (fun t => c.cv (Y' t) * (c.cv (X' t) - X t)) ≤ β * (B₁ * ((1 + c.u) ^ k₁ - 1)) :=
      le_trans (nrm_mul_le β0 fun t ht => by linarith [hY.norm_computed ht]) (mul_le_mul_of_nonneg_left hX.err β0)
    have e3 : nrm (range l) (fun t => X t * (c.cv (Y' t) - Y t)) ≤ B₁ * (B₂ * ((1 + c.u) ^ k₂ - 1)) :=
      le_trans (nrm_mul_le b1 fun t ht => by
        have := norm_le_nrm (v := X) ht
        linarith [hX.le, hX.phi0]) (mul_le_mul_of_nonneg_left hY.err b1)
    have s1 := nrm_add_le (A := range l) (v := fun t => c.cv (Y' t) * (c.cv (X' t) - X t)) (w := fun t => X t * (c.cv (Y' t) - Y t))
    have s2 := nrm_add_le (A := range l) (v := fun t => c.cv (mulpz (X' t) (Y' t)) - c.cv (X' t) * c.cv (Y' t))
      (w := fun t => c.cv (Y' t) * (c.cv (X' t) - X t) + X t * (c.cv (Y' t) - Y t))
    rw [nrm_congr (v := fun t => c.cv (mulpz (X' t) (Y' t)) - mulpz (X t) (Y t))
      (w := fun t => c.cv (mulpz (X' t) (Y' t)) - c.cv (X' t) * c.cv (Y' t) +
        (c.cv (Y' t) * (c.cv (X' t) - X t) + X t * (c.cv (Y' t) - Y t))) fun t _ => by
          show _ - X t * Y t = _
          ring]
    calc _ ≤ β * ((1 + c.u) ^ 4 - 1) * ((1 + c.u) ^ k₁ * B₁) + (β * (B₁ * ((1 + c.u) ^ k₁ - 1)) + B₁ * (B₂ * ((1 + c.u) ^ k₂ - 1))) := by
          linarith
      _ = _ := by rw [hβ, pow_add, pow_add]; ring

/-- the last multiplication -/
theorem blueEnd (L : ApBlue (C := Xmm F) c.Ap c.m0 c.G) (h1 : 1 ≤ n) (h31 : n ≤ 2 ^ 31) (hl : n ≤ l)
    (hv : c.VAp (range l) v v' φ B k) (hφ : √n * c.m0 ≤ φ) (hG : 2 * B ≤ c.G) (hk : k + 17 ≤ c.K) :
    c.VAp (range n) (blueEnd ℂ n inv v) (blueEnd (Xmm F) n inv v') φ B (k + 17) := by
  have h0 := c.m0_pos.le
  have hsub : range n ⊆ range l := range_subset_range.2 hl
  have := VAp.step (lam := 1) (k0 := 17) (q := 1) (S := OTFFT.blueEnd ℂ n inv) (S' := OTFFT.blueEnd (Xmm F) n inv)
    (Bs := range n) (M := fun t => ‖c.cv (v' t)‖ + c.m0) hv zero_le_one le_rfl
    (by
      rw [one_mul, nrm_congr fun t _ => blueEnd_sub h1 inv _ _ t]
      exact le_trans (nrm_mono fun t _ => (blueEnd_norm h1 inv _ t).le) (nrm_mono_set hsub))
    (by
      rw [one_mul]
      exact le_trans (nrm_mono fun t _ => (blueEnd_norm h1 inv _ t).le) (nrm_mono_set hsub))
    (fun t ht => by
      unfold OTFFT.blueEnd
      exact L.mono (L.mul_tw (ap_self (hv.fin t (hsub ht)) le_rfl) (L.cnj (L.X_ap (inv := inv) h1 h31 t))) le_rfl (by omega))
    (by
      have := nrm_shift (A := range n) (v := fun t => c.cv (v' t)) h0
      rw [card_range] at this
      have := nrm_mono_set (v := fun t => c.cv (v' t)) hsub
      rw [Nat.cast_one, one_mul, one_mul]
      linarith) (by omega) (by push_cast; linarith)
  rwa [one_mul, one_mul, one_mul] at this

/-- the normalisation -/
theorem blueScale (L : ApBlue (C := Xmm F) c.Ap c.m0 c.G) (h1 : 1 ≤ n) (h31 : n ≤ 2 ^ 31)
    (hv : c.VAp (range n) v v' φ B k) (hφ : √n * c.m0 ≤ scR n mode * φ) (hG : 2 * B ≤ c.G) (hk : k + 6 ≤ c.K) :
    c.VAp (range n) (fun t => bsc mode n (v t)) (fun t => bsc mode n (v' t)) (scR n mode * φ) (scR n mode * B) (k + 6) := by
  have hs := ApLaws.scR_range n mode h1 h31
  have hs0 : 0 < scR n mode := lt_of_lt_of_le (by positivity) hs.1
  have q0 : 0 < √(n:ℝ) := Real.sqrt_pos.2 (by exact_mod_cast h1)
  have m0 := c.m0_pos
  have hf : c.m0 ≤ scR n mode * (φ / √n) := by rw [← mul_div_assoc, le_div_iff₀ q0]; linarith
  have hf0 : c.m0 ≤ φ / √n := le_trans hf (by
    have : 0 ≤ φ / √n := div_nonneg hv.phi0 q0.le
    nlinarith [hs.2])
  have hfφ : √n * (φ / √n) = φ := by field_simp
  have hlip : ∀ z w : ℕ → ℂ, nrm (range n) (fun t => bsc mode n (z t) - bsc mode n (w t)) = scR n mode * nrm (range n) fun t => z t - w t := by
    intro z w
    rw [nrm_congr (w := fun t => (scR n mode : ℂ) * (z t - w t)) fun t _ => by rw [bsc_C, bsc_C, scC_eq]; ring, nrm_mul,
      Complex.norm_real, Real.norm_of_nonneg hs0.le]
  have := VAp.step (lam := scR n mode) (k0 := 6) (q := 1) (S := fun z t => bsc mode n (z t)) (S' := fun z t => bsc mode n (z t))
    (Bs := range n) (M := fun t => scR n mode * (‖c.cv (v' t)‖ + φ / √n)) hv hs0.le le_rfl
    (hlip _ _).le
    (by
      have := hlip v fun _ => 0
      simp only [sub_zero] at this
      rw [← this]
      refine le_of_eq (nrm_congr fun t _ => ?_)
      rw [bsc_C, bsc_C]; ring)
    (fun t ht => by
      have n0 := norm_nonneg (c.cv (v' t))
      have hle : φ / √n ≤ φ := by
        have : (1:ℝ) ≤ √n := by rw [Real.one_le_sqrt]; exact_mod_cast h1
        exact div_le_self hv.phi0 this
      have := L.bsc_ap (mode := mode) h1 h31 (ap_self (hv.fin t ht) hf0) (le_trans (hv.entry_le (by omega) hle ht) hG)
        (le_trans hf (mul_le_mul_of_nonneg_left (by linarith) hs0.le))
      rwa [Nat.zero_add] at this)
    (by
      have := nrm_shift (A := range n) (v := fun t => c.cv (v' t)) (f := φ / √n) (by linarith)
      rw [card_range, hfφ] at this
      rw [Nat.cast_one, mul_one]
      push_cast
      rw [nrm_mul, Complex.norm_real, Real.norm_of_nonneg hs0.le]
      push_cast at this
      exact mul_le_mul_of_nonneg_left this hs0.le) (by omega) (by
        have := hv.B0
        push_cast
        nlinarith [hs.2])
  rwa [one_mul] at this

set_option maxHeartbeats 1000000 in
/-- the whole transform: `165 ⌈log₂ n⌉ + 222` roundings of a vector that is `√l` times as large as the result, where `l ≤ 4n` is the
padded length -/
theorem blue (thr : Thr) (L : ApBlue (C := Xmm F) c.Ap c.m0 c.G) (R : ApReal (C := Xmm F) c.Ap c.m0 c.G) (hK : 10000 ≤ c.K) (h2 : 2 ≤ n)
    (h29 : n ≤ 2 ^ 29) {A : ℝ} (hA : 0 ≤ A) (hv : c.VAp (range n) v v' (A / 2) (3 / 2 * A) 0) (e : Entry)
    (hφ : 2 ^ 16 * c.m0 ≤ scR n e.mode * (A / 2)) (hG : 256 * (n * (n * A)) ≤ c.G) (hG1 : 128 * (n:ℝ) ≤ c.G) :
    ∃ φ, c.VAp (range n) (blueOutF ℂ thr e n v) (blueOutF (Xmm F) thr e n v') φ (scR n e.mode * (9 * (n * A))) (165 * Nat.clog 2 n + 222) := by
  obtain ⟨j, hj, hl2, hl4, hl31, hjc, hnl⟩ := ApBlue.pad_facts (n := n) (by omega) h29
  have hcl : Nat.clog 2 n ≤ 29 := by
    have := Nat.clog_mono_right 2 h29
    rwa [Nat.clog_pow 2 29 (by norm_num)] at this
  have houtC : ∀ (z : ℕ → ℂ) (t : ℕ), blueOutF ℂ thr e n z t = bsc e.mode n (OTFFT.blueEnd ℂ n e.isInv
      (fftOut ℂ thr true .scale_length (bluePad n) fun k => mulpz (fftOut ℂ thr false .scale_1 (bluePad n) (blueA ℂ n e.isInv (blueTab ℂ n) z) k)
        (fftOut ℂ thr false .scale_1 (bluePad n) (blueB ℂ n (bluePad n) e.isInv (blueTab ℂ n)) k)) t) := by
    intro z t
    unfold blueOutF blueRes
    rw [if_neg (by omega)]
    rfl
  have houtF : ∀ (z : ℕ → Xmm F) (t : ℕ), blueOutF (Xmm F) thr e n z t = bsc e.mode n (OTFFT.blueEnd (Xmm F) n e.isInv
      (fftOut (Xmm F) thr true .scale_length (bluePad n) fun k => mulpz (fftOut (Xmm F) thr false .scale_1 (bluePad n) (blueA (Xmm F) n e.isInv (blueTab (Xmm F) n) z) k)
        (fftOut (Xmm F) thr false .scale_1 (bluePad n) (blueB (Xmm F) n (bluePad n) e.isInv (blueTab (Xmm F) n)) k)) t) := by
    intro z t
    unfold blueOutF blueRes
    rw [if_neg (by omega)]
    rfl
  generalize bluePad n = l at *
  have hw : errWeight2 l = 55 * j := by rw [hj]; exact errWeight2_two_pow j
  have hn1 : (1:ℝ) ≤ n := by exact_mod_cast (by omega : 1 ≤ n)
  have hl1 : (1:ℝ) ≤ l := by exact_mod_cast (by omega : 1 ≤ l)
  have hlr4 : (l:ℝ) ≤ 4 * n := by exact_mod_cast hl4
  have hlr31 : (l:ℝ) ≤ 2 ^ 31 := by exact_mod_cast hl31
  have q1 : 1 ≤ √(l:ℝ) := Real.one_le_sqrt.2 hl1
  have qq : √(l:ℝ) * √l = l := Real.mul_self_sqrt (by linarith)
  have ql : √(l:ℝ) ≤ l := by nlinarith
  have q16 : √(l:ℝ) ≤ 2 ^ 16 := by
    rw [Real.sqrt_le_left (by positivity)]
    exact le_trans hlr31 (by norm_num)
  have qn : √(n:ℝ) ≤ √l := Real.sqrt_le_sqrt (by exact_mod_cast hnl)
  have m0 := c.m0_pos
  have hs := ApLaws.scR_range n e.mode (by omega) (by omega)
  have hs0 : 0 < scR n e.mode := lt_of_lt_of_le (by positivity) hs.1
  have hφA : 2 ^ 16 * c.m0 ≤ A / 2 := le_trans hφ (by nlinarith [hs.2])
  have hqm : √(l:ℝ) * c.m0 ≤ A / 2 := le_trans (mul_le_mul_of_nonneg_right q16 m0.le) hφA
  have hm1 := L.m0_le
  have lA : (l:ℝ) * A ≤ 4 * (n * A) := by nlinarith
  have nA : (n:ℝ) * A ≤ n * (n * A) := by nlinarith [mul_nonneg (by linarith : (0:ℝ) ≤ n) hA]
  have AnA : A ≤ n * A := by nlinarith
  have hnn0 : 0 ≤ (n:ℝ) * (n * A) := by positivity
  have hlA0 : 0 ≤ (l:ℝ) * A := by positivity
  have hllA : (l:ℝ) * (l * A) ≤ 16 * (n * (n * A)) := by
    calc (l:ℝ) * (l * A) ≤ 4 * n * (4 * (n * A)) := mul_le_mul hlr4 lA hlA0 (by positivity)
      _ = _ := by ring
  have hqA : √(l:ℝ) * A ≤ l * A := mul_le_mul_of_nonneg_right ql hA
  have hlA1 : (l:ℝ) * A ≤ l * (l * A) := by nlinarith
  have hql : √(l:ℝ) * (l * A) ≤ l * (l * A) := mul_le_mul_of_nonneg_right ql hlA0
  have hqA0 : 0 ≤ √(l:ℝ) * A := by positivity
  -- the chirp times the data, and its transform
  have s1 := hv.blueIn (inv := e.isInv) L (by omega) (by omega) hnl hqm (by linarith) (by omega)
  have sA := VAp.fft (thr := thr) (mode := .scale_1) (inv := false) R (by omega) hl2 hl31 s1 hqm (by
    rw [show scR l .scale_1 = 1 from rfl, one_mul]; exact hqm) (by linarith) (by omega)
  -- the transform of the chirp
  have s2 := VAp.blueChirp (c := c) (l := l) (inv := e.isInv) L (by omega) (n := n) (by omega) (by omega)
  have sB := VAp.fft (thr := thr) (mode := .scale_1) (inv := false) R (by omega) hl2 hl31 s2 (by
    have : c.m0 ≤ 1 / 2 := by norm_num at hm1; linarith
    nlinarith) (by
    rw [show scR l .scale_1 = 1 from rfl, one_mul]
    have : c.m0 ≤ 1 / 2 := by norm_num at hm1; linarith
    nlinarith) (by nlinarith) (by omega)
  rw [show scR l .scale_1 = 1 from rfl, mul_one] at sA sB
  have sB := sB.mono (φ' := 1) (B' := 3 / 2 * l) (k' := 13 + errWeight2 l) (by norm_num) (by nlinarith [show (2:ℝ) ≤ l by exact_mod_cast hl2]) (by nlinarith) le_rfl
  have sP := VAp.mul L sA sB (by nlinarith) (by linarith) (by
      have : 2 * (√(l:ℝ) * (3 / 2 * A)) * (2 * (3 / 2 * l)) = 9 * (√l * (l * A)) := by ring
      rw [this]; linarith) (by linarith) (by linarith) (by omega)
  have hsl : scR l .scale_length = 1 / (l:ℝ) := rfl
  have hl0 : (l:ℝ) ≠ 0 := by linarith
  have mA : c.m0 ≤ A / 2 := by linarith
  have sI := VAp.fft (thr := thr) (mode := .scale_length) (inv := true) R (by omega) hl2 hl31 sP (by
      have : (l:ℝ) * (A / 2) * (3 / 2 * √l) ≥ √l * (A / 2) := by
        have : 0 ≤ √(l:ℝ) * A := hqA0
        nlinarith
      nlinarith) (by
      rw [hsl]
      have : 1 / (l:ℝ) * (√l * (A / 2) * (3 / 2 * l)) = √l * (A / 2) * (3 / 2) := by field_simp
      rw [this]
      nlinarith) (by
      have : √(l:ℝ) * (2 * (√l * (3 / 2 * A) * (3 / 2 * l))) = 9 / 2 * (√l * √l) * (l * A) := by ring
      rw [this, qq]; linarith) (by omega)
  rw [hsl, show √(l:ℝ) * (1 / l) * (√l * (A / 2) * (3 / 2 * l)) = 3 / 4 * (l * A) by
      calc _ = √(l:ℝ) * √l * (1 / l) * l * (3 / 4 * A) := by ring
        _ = _ := by rw [qq]; field_simp,
    show √(l:ℝ) * (1 / l) * (√l * (3 / 2 * A) * (3 / 2 * l)) = 9 / 4 * (l * A) by
      calc _ = √(l:ℝ) * √l * (1 / l) * l * (9 / 4 * A) := by ring
        _ = _ := by rw [qq]; field_simp] at sI
  have hAl : A / 2 ≤ 3 / 4 * (l * A) := by nlinarith
  have sE := sI.blueEnd (inv := e.isInv) L (n := n) (by omega) (by omega) hnl
    (le_trans (le_trans (mul_le_mul_of_nonneg_right qn m0.le) hqm) hAl) (by linarith) (by omega)
  have sS := sE.blueScale (mode := e.mode) L (by omega) (by omega) (by
    refine le_trans (mul_le_mul_of_nonneg_right (le_trans qn q16) m0.le) (le_trans hφ (mul_le_mul_of_nonneg_left hAl hs0.le))) (by linarith) (by omega)
  refine ⟨_, ((sS.mono sS.phi0 le_rfl (mul_le_mul_of_nonneg_left (b := 9 / 4 * (l * A)) (c := 9 * (n * A)) (by linarith) hs0.le) ?_).congr
    (fun t _ => houtC v t) fun t _ => houtF v' t)⟩
  omega

end Flt.VAp
end OTFFT
