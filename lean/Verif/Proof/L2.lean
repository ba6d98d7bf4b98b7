/-
Error analysis in the 2-norm: maps between vectors, computed in floating point.
-/
import Verif.Proof.RoundLaws
import Verif.Proof.DFTFacts
import Mathlib.Analysis.InnerProductSpace.PiL2
import Mathlib.Algebra.Order.Chebyshev

namespace OTFFT

open Finset

/-! ### the 2-norm -/

/-- 2-norm of the entries in `A` -/
noncomputable def nrm {α : Type} (A : Finset α) (v : α → ℂ) : ℝ := √(∑ t ∈ A, ‖v t‖ ^ 2)

section nrm
variable {α : Type} {A : Finset α} {v w : α → ℂ}

theorem nrm_nonneg : 0 ≤ nrm A v := Real.sqrt_nonneg _

theorem nrm_sq : nrm A v ^ 2 = ∑ t ∈ A, ‖v t‖ ^ 2 := Real.sq_sqrt (sum_nonneg fun _ _ => by positivity)

theorem nrm_le {X : ℝ} (hX : 0 ≤ X) : nrm A v ≤ X ↔ ∑ t ∈ A, ‖v t‖ ^ 2 ≤ X ^ 2 := by
  unfold nrm
  rw [Real.sqrt_le_left hX]

theorem nrm_eq : nrm A v = ‖(WithLp.toLp 2 fun i : A => v i : EuclideanSpace ℂ A)‖ := by
  rw [EuclideanSpace.norm_eq]
  unfold nrm
  rw [← Finset.sum_attach]
  rfl

theorem nrm_add_le : nrm A (fun t => v t + w t) ≤ nrm A v + nrm A w := by
  rw [nrm_eq, nrm_eq, nrm_eq]
  exact norm_add_le (WithLp.toLp 2 fun i : A => v i : EuclideanSpace ℂ A) (WithLp.toLp 2 fun i : A => w i)

theorem nrm_congr (h : ∀ t ∈ A, v t = w t) : nrm A v = nrm A w := by
  unfold nrm
  rw [sum_congr rfl fun t ht => by rw [h t ht]]

theorem nrm_mono (h : ∀ t ∈ A, ‖v t‖ ≤ ‖w t‖) : nrm A v ≤ nrm A w :=
  Real.sqrt_le_sqrt (sum_le_sum fun t ht => pow_le_pow_left₀ (norm_nonneg _) (h t ht) 2)

theorem nrm_mul {x : ℂ} : nrm A (fun t => x * v t) = ‖x‖ * nrm A v := by
  unfold nrm
  simp only [norm_mul, mul_pow]
  rw [← mul_sum, Real.sqrt_mul (by positivity), Real.sqrt_sq (norm_nonneg _)]

theorem nrm_const {x : ℂ} : nrm A (fun _ => x) = √(#A) * ‖x‖ := by
  unfold nrm
  rw [sum_const, nsmul_eq_mul, Real.sqrt_mul (by positivity), Real.sqrt_sq (norm_nonneg _)]

theorem nrm_zero : nrm A (fun _ => 0) = 0 := by rw [nrm_const]; simp

/-- Cauchy-Schwarz -/
theorem sum_le_nrm : ∑ t ∈ A, ‖v t‖ ≤ √(#A) * nrm A v := by
  apply abs_le_of_sq_le_sq' _ (mul_nonneg (Real.sqrt_nonneg _) nrm_nonneg) |>.2
  rw [mul_pow, nrm_sq, Real.sq_sqrt (by positivity)]
  exact sq_sum_le_card_mul_sum_sq

theorem nrm_mono_set {A' : Finset α} (h : A ⊆ A') : nrm A v ≤ nrm A' v :=
  Real.sqrt_le_sqrt (sum_le_sum_of_subset_of_nonneg h fun _ _ _ => by positivity)

/-- adding `f` to every magnitude -/
theorem nrm_shift {f : ℝ} (hf : 0 ≤ f) : nrm A (fun t => ((‖v t‖ + f : ℝ) : ℂ)) ≤ nrm A v + √(#A) * f := by
  have e : nrm A v = nrm A fun t => ((‖v t‖ : ℝ) : ℂ) := by
    unfold nrm; simp
  have e2 : √(#A) * f = nrm A fun _ => (f : ℂ) := by
    rw [nrm_const, Complex.norm_real, Real.norm_of_nonneg hf]
  rw [e, e2]
  push_cast
  exact nrm_add_le

end nrm

/-! ### maps -/

namespace Flt
variable {F : Type} [FArith F] {c : Flt F} {α : Type}

/-- The map `S` between vectors with index set `A` stretches distances at most by the factor `lam`; `S'` is a computed
version of it, with an error of at most `lam((1+u)^k - 1)` relative to the 2-norm of the operand. `f` is what an entry
contributes to the norm at least (for underflow), `g` bounds the norm (for overflow). -/
structure Op (c : Flt F) (A : Finset α) (S : (α → ℂ) → α → ℂ) (S' : (α → Xmm F) → α → Xmm F) (lam : ℝ) (k : ℕ) (f g : ℝ) :
    Prop where
  lam0 : 0 ≤ lam
  f0 : 0 ≤ f
  zero : nrm A (S fun _ => 0) = 0
  lip : ∀ v w, nrm A (fun t => S v t - S w t) ≤ lam * nrm A (fun t => v t - w t)
  loc : ∀ (v' : α → Xmm F) (B : ℝ) (j : ℕ), (∀ t ∈ A, cfin c.fin (v' t)) →
    nrm A (fun t => c.cv (v' t)) + √(#A) * f ≤ (1 + c.u) ^ j * B → j + k ≤ c.K → B ≤ g →
    (∀ t ∈ A, cfin c.fin (S' v' t)) ∧
      nrm A (fun t => c.cv (S' v' t) - S (fun s => c.cv (v' s)) t) ≤
        lam * ((1 + c.u) ^ k - 1) * (nrm A (fun t => c.cv (v' t)) + √(#A) * f)

namespace Op
variable {A : Finset α} {S S1 S2 : (α → ℂ) → α → ℂ} {S' S1' S2' : (α → Xmm F) → α → Xmm F} {lam lam1 lam2 : ℝ}
  {k k1 k2 : ℕ} {f f1 f2 g g1 g2 : ℝ}

theorem norm_le (h : c.Op A S S' lam k f g) (v : α → ℂ) : nrm A (S v) ≤ lam * nrm A v := by
  have h1 := h.lip v fun _ => 0
  have h2 := nrm_add_le (A := A) (v := fun t => S v t - S (fun _ => 0) t) (w := S fun _ => 0)
  simp only [sub_add_cancel, sub_zero] at h1 h2
  rw [h.zero] at h2
  linarith

/-- more roundings, smaller range -/
theorem mono (h : c.Op A S S' lam k f g) {lam' : ℝ} {k' : ℕ} {f' g' : ℝ} (hl : lam ≤ lam') (hk : k ≤ k') (hf : f ≤ f')
    (hg : g' ≤ g) : c.Op A S S' lam' k' f' g' := by
  have hl0 : 0 ≤ lam' := le_trans h.lam0 hl
  refine ⟨hl0, le_trans h.f0 hf, h.zero, fun v w => le_trans (h.lip v w) (mul_le_mul_of_nonneg_right hl nrm_nonneg), ?_⟩
  intro v' B j hv hB hj hB2
  have hs : √(#A) * f ≤ √(#A) * f' := mul_le_mul_of_nonneg_left hf (Real.sqrt_nonneg _)
  obtain ⟨a, b⟩ := h.loc v' B j hv (by linarith) (by omega) (by linarith)
  refine ⟨a, le_trans b ?_⟩
  have p1 := c.one_le_pow k
  have p2 := c.pow_mono hk
  have hn := nrm_nonneg (A := A) (v := fun t => c.cv (v' t))
  calc _ ≤ lam * ((1 + c.u) ^ k - 1) * (nrm A (fun t => c.cv (v' t)) + √(#A) * f') :=
        mul_le_mul_of_nonneg_left (by linarith) (mul_nonneg h.lam0 (by linarith))
    _ ≤ _ := by
      exact mul_le_mul_of_nonneg_right (mul_le_mul hl (by linarith) (by linarith) hl0)
        (by have := mul_nonneg (Real.sqrt_nonneg (#A)) (le_trans h.f0 hf); linarith)

/-- what a computed map does to a computed operand -/
theorem computed (h : c.Op A S S' lam k f g) (v' : α → Xmm F) (B : ℝ) (j : ℕ) (hv : ∀ t ∈ A, cfin c.fin (v' t))
    (hB : nrm A (fun t => c.cv (v' t)) + √(#A) * f ≤ (1 + c.u) ^ j * B) (hj : j + k ≤ c.K) (hg : B ≤ g) :
    nrm A (fun t => c.cv (S' v' t)) + √(#A) * (lam * f) ≤
      lam * (1 + c.u) ^ k * (nrm A (fun t => c.cv (v' t)) + √(#A) * f) := by
  obtain ⟨-, b⟩ := h.loc v' B j hv hB hj hg
  have h1 := h.norm_le fun t => c.cv (v' t)
  have h2 := nrm_add_le (A := A) (v := fun t => c.cv (S' v' t) - S (fun s => c.cv (v' s)) t) (w := S fun s => c.cv (v' s))
  simp only [sub_add_cancel] at h2
  nlinarith

theorem comp (h1 : c.Op A S1 S1' lam1 k1 f1 g1) (h2 : c.Op A S2 S2' lam2 k2 f2 g2) (hf : f2 ≤ lam1 * f1)
    (hg : lam1 * g1 ≤ g2) :
    c.Op A (fun v => S2 (S1 v)) (fun v => S2' (S1' v)) (lam1 * lam2) (k1 + k2) f1 g1 := by
  refine ⟨mul_nonneg h1.lam0 h2.lam0, h1.f0, ?_, fun v w => ?_, ?_⟩
  · have h := h2.norm_le (S1 fun _ => 0)
    rw [h1.zero, mul_zero] at h
    exact le_antisymm h nrm_nonneg
  · calc _ ≤ lam2 * nrm A (fun t => S1 v t - S1 w t) := h2.lip _ _
      _ ≤ lam2 * (lam1 * nrm A fun t => v t - w t) := mul_le_mul_of_nonneg_left (h1.lip v w) h2.lam0
      _ = _ := by ring
  · intro v' B j hv hB hj hBg
    obtain ⟨a, b⟩ := h1.loc v' B j hv hB (by omega) hBg
    have hc := h1.computed v' B j hv hB (by omega) hBg
    have hs : √(#A) * f2 ≤ √(#A) * (lam1 * f1) := mul_le_mul_of_nonneg_left hf (Real.sqrt_nonneg _)
    have hp1 := c.one_le_pow k1
    have hp2 := c.one_le_pow k2
    set X := nrm A (fun t => c.cv (v' t)) + √(#A) * f1 with hX
    have hX0 : 0 ≤ X := add_nonneg nrm_nonneg (mul_nonneg (Real.sqrt_nonneg _) h1.f0)
    have hl1 := h1.lam0
    have hl2 := h2.lam0
    obtain ⟨a', b'⟩ := h2.loc (S1' v') (lam1 * B) (j + k1) a (by
      refine le_trans (le_trans (by linarith) hc) ?_
      calc lam1 * (1 + c.u) ^ k1 * X ≤ lam1 * (1 + c.u) ^ k1 * ((1 + c.u) ^ j * B) :=
            mul_le_mul_of_nonneg_left hB (by positivity)
        _ = _ := by rw [pow_add]; ring) (by omega) (le_trans (mul_le_mul_of_nonneg_left hBg hl1) hg)
    refine ⟨a', ?_⟩
    have t1 := nrm_add_le (A := A) (v := fun t => c.cv (S2' (S1' v') t) - S2 (fun s => c.cv (S1' v' s)) t)
      (w := fun t => S2 (fun s => c.cv (S1' v' s)) t - S2 (S1 fun s => c.cv (v' s)) t)
    simp only [sub_add_sub_cancel] at t1
    have t2 := h2.lip (fun s => c.cv (S1' v' s)) (S1 fun s => c.cv (v' s))
    have t3 : nrm A (fun t => c.cv (S1' v' t)) + √(#A) * f2 ≤ lam1 * (1 + c.u) ^ k1 * X := by linarith
    calc _ ≤ lam2 * ((1 + c.u) ^ k2 - 1) * (lam1 * (1 + c.u) ^ k1 * X) + lam2 * (lam1 * ((1 + c.u) ^ k1 - 1) * X) := by
          refine le_trans t1 (add_le_add (le_trans b' (mul_le_mul_of_nonneg_left t3 ?_))
            (le_trans t2 (mul_le_mul_of_nonneg_left b hl2)))
          exact mul_nonneg hl2 (by linarith)
      _ = _ := by rw [pow_add]; ring

/-! ### blocks -/

/-- `A` is cut into blocks: entry `i` of block `b` is entry `e b i` of the whole -/
structure Cut {β ι : Type} (A : Finset α) (Bl : Finset β) (I : Finset ι) (e : β → ι → α) : Prop where
  mem : ∀ b ∈ Bl, ∀ i ∈ I, e b i ∈ A
  ex : ∀ t ∈ A, ∃ b ∈ Bl, ∃ i ∈ I, t = e b i
  sum : ∀ h : α → ℝ, ∑ t ∈ A, h t = ∑ b ∈ Bl, ∑ i ∈ I, h (e b i)

section blocks
variable {β ι : Type} {Bl : Finset β} {I : Finset ι} {e e' : β → ι → α}

theorem Cut.nrm_sq (h : Cut A Bl I e) (v : α → ℂ) : nrm A v ^ 2 = ∑ b ∈ Bl, nrm I (fun i => v (e b i)) ^ 2 := by
  simp only [OTFFT.nrm_sq]
  exact h.sum _

theorem Cut.card (h : Cut A Bl I e) : (#A : ℝ) = #Bl * #I := by
  have := h.sum fun _ => 1
  simpa using this

theorem Cut.nrm_le (h : Cut A Bl I e) (v : α → ℂ) {b : β} (hb : b ∈ Bl) : nrm I (fun i => v (e b i)) ≤ nrm A v := by
  apply abs_le_of_sq_le_sq' _ nrm_nonneg |>.2
  rw [h.nrm_sq]
  exact single_le_sum (f := fun b => nrm I (fun i => v (e b i)) ^ 2) (fun _ _ => by positivity) hb

/-- a map that works block by block -/
theorem blocks {G : β → (ι → ℂ) → ι → ℂ} {G' : β → (ι → Xmm F) → ι → Xmm F} (hne : Bl.Nonempty)
    (hin : Cut A Bl I e) (hout : Cut A Bl I e') (hG : ∀ b ∈ Bl, c.Op I (G b) (G' b) lam k f g)
    (hS : ∀ v, ∀ b ∈ Bl, ∀ i ∈ I, S v (e' b i) = G b (fun j => v (e b j)) i)
    (hS' : ∀ v, ∀ b ∈ Bl, ∀ i ∈ I, S' v (e' b i) = G' b (fun j => v (e b j)) i) : c.Op A S S' lam k f g := by
  obtain ⟨b0, hb0⟩ := hne
  have hl := (hG b0 hb0).lam0
  have hf := (hG b0 hb0).f0
  have hcard : √(#I) ≤ √(#A) := by
    rw [hin.card]
    apply Real.sqrt_le_sqrt
    have h1 : (1:ℝ) ≤ #Bl := by exact_mod_cast Finset.card_pos.2 ⟨b0, hb0⟩
    have h2 : (0:ℝ) ≤ #I := by positivity
    nlinarith
  refine ⟨hl, hf, ?_, fun v w => ?_, ?_⟩
  · have : nrm A (S fun _ => 0) ^ 2 = 0 := by
      rw [hout.nrm_sq]
      refine sum_eq_zero fun b hb => ?_
      rw [nrm_congr fun i hi => hS _ b hb i hi, (hG b hb).zero]
      norm_num
    exact pow_eq_zero_iff (by norm_num) |>.1 this
  · apply abs_le_of_sq_le_sq' _ (mul_nonneg hl nrm_nonneg) |>.2
    rw [hout.nrm_sq, mul_pow, hin.nrm_sq, mul_sum]
    refine sum_le_sum fun b hb => ?_
    rw [nrm_congr fun i hi => by rw [hS _ b hb i hi, hS _ b hb i hi], ← mul_pow]
    exact pow_le_pow_left₀ nrm_nonneg ((hG b hb).lip (fun j => v (e b j)) fun j => w (e b j)) 2
  · intro v' B j hv hB hj hBg
    have hloc : ∀ b ∈ Bl, (∀ i ∈ I, cfin c.fin (G' b (fun i => v' (e b i)) i)) ∧
        nrm I (fun i => c.cv (G' b (fun i => v' (e b i)) i) - G b (fun s => c.cv (v' (e b s))) i) ≤
          lam * ((1 + c.u) ^ k - 1) * (nrm I (fun i => c.cv (v' (e b i))) + √(#I) * f) :=
      fun b hb => (hG b hb).loc (fun i => v' (e b i)) B j (fun i hi => hv _ (hin.mem b hb i hi))
      (le_trans (add_le_add (hin.nrm_le (fun t => c.cv (v' t)) hb) (mul_le_mul_of_nonneg_right hcard hf)) hB) hj hBg
    refine ⟨fun t ht => ?_, ?_⟩
    · obtain ⟨b, hb, i, hi, rfl⟩ := hout.ex t ht
      rw [hS' _ b hb i hi]
      exact (hloc b hb).1 i hi
    · have hp := c.one_le_pow k
      have hlp : 0 ≤ lam * ((1 + c.u) ^ k - 1) := mul_nonneg hl (by linarith)
      apply abs_le_of_sq_le_sq' _ (mul_nonneg hlp (add_nonneg nrm_nonneg (mul_nonneg (Real.sqrt_nonneg _) hf))) |>.2
      rw [hout.nrm_sq, mul_pow]
      have h1 : ∑ b ∈ Bl, nrm I (fun i => c.cv (S' v' (e' b i)) - S (fun s => c.cv (v' s)) (e' b i)) ^ 2 ≤
          ∑ b ∈ Bl, (lam * ((1 + c.u) ^ k - 1)) ^ 2 * (nrm I (fun i => c.cv (v' (e b i))) + √(#I) * f) ^ 2 := by
        refine sum_le_sum fun b hb => ?_
        rw [nrm_congr fun i hi => by rw [hS' _ b hb i hi, hS _ b hb i hi], ← mul_pow]
        exact pow_le_pow_left₀ nrm_nonneg (hloc b hb).2 2
      refine le_trans h1 ?_
      rw [← mul_sum]
      refine mul_le_mul_of_nonneg_left ?_ (by positivity)
      -- Minkowski over the blocks
      have h2 := nrm_add_le (A := Bl) (v := fun b => ((nrm I (fun i => c.cv (v' (e b i))) : ℝ) : ℂ))
        (w := fun _ => ((√(#I) * f : ℝ) : ℂ))
      have e1 : nrm Bl (fun b => ((nrm I (fun i => c.cv (v' (e b i))) : ℝ) : ℂ)) = nrm A fun t => c.cv (v' t) := by
        rw [← sq_eq_sq₀ nrm_nonneg nrm_nonneg, OTFFT.nrm_sq, hin.nrm_sq]
        refine sum_congr rfl fun b _ => ?_
        rw [Complex.norm_real, Real.norm_of_nonneg nrm_nonneg]
      have e2 : nrm Bl (fun _ => ((√(#I) * f : ℝ) : ℂ)) = √(#A) * f := by
        rw [nrm_const, Complex.norm_real, Real.norm_of_nonneg (mul_nonneg (Real.sqrt_nonneg _) hf), ← mul_assoc,
          ← Real.sqrt_mul (by positivity), hin.card]
      rw [e1, e2] at h2
      refine le_trans (le_of_eq ?_) (pow_le_pow_left₀ nrm_nonneg h2 2)
      rw [OTFFT.nrm_sq]
      refine sum_congr rfl fun b _ => ?_
      rw [← Complex.ofReal_add, Complex.norm_real, Real.norm_of_nonneg
        (add_nonneg nrm_nonneg (mul_nonneg (Real.sqrt_nonneg _) hf))]

end blocks

/-- moving entries around -/
theorem perm {e : α → α} (he : ∀ t ∈ A, e t ∈ A) (hs : ∀ h : α → ℝ, ∑ t ∈ A, h (e t) = ∑ t ∈ A, h t) (hf : 0 ≤ f) :
    c.Op A (fun v t => v (e t)) (fun v t => v (e t)) 1 0 f g := by
  refine ⟨zero_le_one, hf, nrm_zero, fun v w => ?_, fun v' B j hv _ _ _ => ⟨fun t ht => hv _ (he t ht), ?_⟩⟩
  · rw [one_mul]
    unfold nrm
    rw [hs fun t => ‖v t - w t‖ ^ 2]
  · simp [nrm_zero]

/-! ### primitive maps -/

/-- entry by entry -/
theorem pointwise {h : α → ℂ → ℂ} {h' : α → Xmm F → Xmm F} (hl : 0 ≤ lam) (h0 : ∀ t ∈ A, h t 0 = 0)
    (hlip : ∀ t ∈ A, ∀ a b, ‖h t a - h t b‖ ≤ lam * ‖a - b‖)
    (hap : ∀ t ∈ A, ∀ a a' M, c.Ap a a' M 0 → M ≤ c.G → c.m0 ≤ lam * M → c.Ap (h t a) (h' t a') (lam * M) k)
    (hf : c.m0 ≤ f) (hlf : c.m0 ≤ lam * f) (hg : 2 * g ≤ c.G) (hlg : lam * (2 * g) ≤ c.G) :
    c.Op A (fun v t => h t (v t)) (fun v t => h' t (v t)) lam k f g := by
  have hf0 : 0 ≤ f := le_trans c.m0_pos.le hf
  refine ⟨hl, hf0, ?_, fun v w => ?_, ?_⟩
  · rw [nrm_congr (w := fun _ => 0) fun t ht => h0 t ht, nrm_zero]
  · rw [← Real.norm_of_nonneg hl, ← Complex.norm_real, ← nrm_mul]
    refine nrm_mono fun t ht => ?_
    rw [norm_mul, Complex.norm_real, Real.norm_of_nonneg hl]
    exact hlip t ht _ _
  · intro v' B j hv hB hj hBg
    have hp := c.one_le_pow k
    have hpj := c.pow_le_two (k := j) (by omega)
    have hpj1 := c.one_le_pow j
    have key : ∀ t ∈ A, cfin c.fin (h' t (v' t)) ∧ ‖c.cv (h' t (v' t)) - h t (c.cv (v' t))‖ ≤
        lam * ((1 + c.u) ^ k - 1) * (‖c.cv (v' t)‖ + f) := by
      intro t ht
      have hMG : ‖c.cv (v' t)‖ + f ≤ 2 * g := by
        have h1 : ‖c.cv (v' t)‖ ≤ nrm A fun t => c.cv (v' t) := by
          apply abs_le_of_sq_le_sq' _ nrm_nonneg |>.2
          rw [nrm_sq]
          exact single_le_sum (f := fun t => ‖c.cv (v' t)‖ ^ 2) (fun _ _ => by positivity) ht
        have h2 : (1:ℝ) ≤ √(#A) := by
          rw [Real.one_le_sqrt]
          exact_mod_cast Finset.card_pos.2 ⟨t, ht⟩
        have h3 : 0 ≤ (1 + c.u) ^ j * B := le_trans (add_nonneg nrm_nonneg (mul_nonneg (Real.sqrt_nonneg _) hf0)) hB
        have h4 : 0 ≤ B := by
          by_contra hc
          have := mul_neg_of_pos_of_neg (lt_of_lt_of_le one_pos hpj1) (not_le.1 hc)
          linarith
        nlinarith
      have hin : c.Ap (c.cv (v' t)) (v' t) (‖c.cv (v' t)‖ + f) 0 :=
        ⟨by linarith [norm_nonneg (c.cv (v' t))], fun _ _ => ⟨hv t ht, by linarith, by simp⟩⟩
      have := hap t ht _ _ _ hin (by linarith) (le_trans hlf (mul_le_mul_of_nonneg_left
        (by linarith [norm_nonneg (c.cv (v' t))]) hl))
      obtain ⟨a, -, b⟩ := this.2 (le_trans (mul_le_mul_of_nonneg_left hMG hl) hlg) (by omega)
      exact ⟨a, le_trans b (le_of_eq (by ring))⟩
    refine ⟨fun t ht => (key t ht).1, ?_⟩
    have hlp : 0 ≤ lam * ((1 + c.u) ^ k - 1) := mul_nonneg hl (by linarith)
    calc _ ≤ nrm A (fun t => ((lam * ((1 + c.u) ^ k - 1) : ℝ) : ℂ) * ((‖c.cv (v' t)‖ + f : ℝ) : ℂ)) := by
          refine nrm_mono fun t ht => ?_
          rw [norm_mul, Complex.norm_real, Complex.norm_real, Real.norm_of_nonneg hlp, Real.norm_of_nonneg
            (by positivity)]
          exact (key t ht).2
      _ ≤ _ := by
        rw [nrm_mul, Complex.norm_real, Real.norm_of_nonneg hlp]
        exact mul_le_mul_of_nonneg_left (nrm_shift hf0) hlp

/-- a butterfly: a DFT of length `r` whose results have at most `k` roundings each -/
theorem bfly {r rho : ℕ} (hr : 0 < r) (hrho : r ≤ rho * rho) {G : (Fin r → ℂ) → Fin r → ℂ} {G' : (Fin r → Xmm F) → Fin r → Xmm F}
    {inv : Bool} (hdft : ∀ xs i, G xs i = ∑ j : Fin r, xs j * om inv r ^ (i.val * j.val))
    (hap : ∀ (x : Fin r → ℂ) (x' : Fin r → Xmm F) (M : Fin r → ℝ), (∀ j, c.Ap (x j) (x' j) (M j) 0) → ∀ i, c.Ap (G x i) (G' x' i) (∑ j, M j) k)
    (hf : c.m0 ≤ f) (hg : √r * (2 * g) ≤ c.G) : c.Op univ G G' (√r) (rho * k) f g := by
  have hf0 : 0 ≤ f := le_trans c.m0_pos.le hf
  have hr0 : 0 ≤ √(r:ℝ) := Real.sqrt_nonneg _
  have hcard : ((#(univ : Finset (Fin r)) : ℕ) : ℝ) = r := by simp
  refine ⟨hr0, hf0, ?_, fun v w => ?_, ?_⟩
  · rw [nrm_congr (w := fun _ => 0) fun i _ => by rw [hdft]; simp, nrm_zero]
  · apply abs_le_of_sq_le_sq' _ (mul_nonneg hr0 nrm_nonneg) |>.2
    rw [mul_pow, Real.sq_sqrt (by positivity), nrm_sq, nrm_sq]
    have hp := xdft_parseval inv r fun t => if h : t < r then v ⟨t, h⟩ - w ⟨t, h⟩ else 0
    unfold Spec.energy at hp
    rw [Finset.sum_range, Finset.sum_range] at hp
    simp only [Complex.normSq_eq_norm_sq, Fin.is_lt, dite_true, Fin.eta] at hp
    rw [← hp]
    refine le_of_eq (sum_congr rfl fun i _ => ?_)
    rw [hdft, hdft, xdft_sum, Finset.sum_range, ← sum_sub_distrib]
    congr 2
    refine sum_congr rfl fun j _ => ?_
    simp only [Fin.is_lt, dite_true, Fin.eta]
    rw [Nat.mul_comm j.val]; ring
  · intro v' B j hv hB hj hBg
    have hrho1 : 1 ≤ rho := Nat.pos_of_ne_zero (by rintro rfl; omega)
    have hk : k ≤ rho * k := Nat.le_mul_of_pos_left k hrho1
    have hp := c.one_le_pow k
    have hpj := c.pow_le_two (k := j) (by omega)
    have hpj1 := c.one_le_pow j
    set X := nrm univ (fun t => c.cv (v' t)) + √(#(univ : Finset (Fin r))) * f with hX
    have hX0 : 0 ≤ X := add_nonneg nrm_nonneg (mul_nonneg (Real.sqrt_nonneg _) hf0)
    have hB0 : 0 ≤ B := by
      by_contra hc
      have := mul_neg_of_pos_of_neg (lt_of_lt_of_le one_pos hpj1) (not_le.1 hc)
      linarith
    have hX2 : X ≤ 2 * g := by nlinarith
    have hsum : ∑ j, (‖c.cv (v' j)‖ + f) ≤ √r * X := by
      have h1 := sum_le_nrm (A := univ) (v := fun t => ((‖c.cv (v' t)‖ + f : ℝ) : ℂ))
      rw [hcard] at h1
      refine le_trans (le_of_eq (sum_congr rfl fun j _ => ?_)) (le_trans h1 (mul_le_mul_of_nonneg_left (nrm_shift hf0) hr0))
      rw [Complex.norm_real, Real.norm_of_nonneg (by positivity)]
    have key : ∀ i, cfin c.fin (G' v' i) ∧ ‖c.cv (G' v' i) - G (fun j => c.cv (v' j)) i‖ ≤
        √r * X * ((1 + c.u) ^ k - 1) := by
      intro i
      have := hap (fun j => c.cv (v' j)) v' (fun j => ‖c.cv (v' j)‖ + f) (fun j =>
        ⟨by linarith [norm_nonneg (c.cv (v' j))], fun _ _ => ⟨hv j (mem_univ _), by linarith, by simp⟩⟩) i
      obtain ⟨a, -, b⟩ := this.2 (le_trans hsum (le_trans (mul_le_mul_of_nonneg_left hX2 hr0) hg)) (by omega)
      exact ⟨a, le_trans b (mul_le_mul_of_nonneg_right hsum (by linarith))⟩
    refine ⟨fun i _ => (key i).1, ?_⟩
    have h0 : 0 ≤ √r * X * ((1 + c.u) ^ k - 1) := mul_nonneg (mul_nonneg hr0 hX0) (by linarith)
    calc _ ≤ nrm univ (fun _ : Fin r => ((√r * X * ((1 + c.u) ^ k - 1) : ℝ) : ℂ)) := by
          refine nrm_mono fun i _ => ?_
          rw [Complex.norm_real, Real.norm_of_nonneg h0]
          exact (key i).2
      _ = √r * (√r * ((1 + c.u) ^ k - 1)) * X := by
        rw [nrm_const, Complex.norm_real, Real.norm_of_nonneg h0, hcard]; ring
      _ ≤ _ := by
        refine mul_le_mul_of_nonneg_right (mul_le_mul_of_nonneg_left ?_ hr0) hX0
        have h1 : √(r:ℝ) ≤ rho := by
          rw [Real.sqrt_le_left (by positivity), pow_two]
          exact_mod_cast hrho
        have h2 := one_add_mul_le_pow (a := (1 + c.u) ^ k - 1) (by linarith) rho
        rw [add_sub_cancel, ← pow_mul, Nat.mul_comm k] at h2
        nlinarith

end Op
end Flt
end OTFFT
