/-
The product, entry by entry, of two computed vectors, in double precision.
-/
import Verif.Proof.L2
import Verif.Props.Accuracy

namespace OTFFT

open Finset Props

theorem norm_le_nrm {α : Type} {A : Finset α} {v : α → ℂ} {t : α} (ht : t ∈ A) : ‖v t‖ ≤ nrm A v := by
  apply abs_le_of_sq_le_sq' _ nrm_nonneg |>.2
  rw [nrm_sq]
  exact single_le_sum (f := fun t => ‖v t‖ ^ 2) (fun _ _ => by positivity) ht

/-- one factor is bounded everywhere, the other one in norm -/
theorem nrm_mul_le {α : Type} {A : Finset α} {x v : α → ℂ} {b : ℝ} (hb : 0 ≤ b) (hx : ∀ t ∈ A, ‖x t‖ ≤ b) :
    nrm A (fun t => x t * v t) ≤ b * nrm A v := by
  have h : nrm A (fun t => x t * v t) ≤ nrm A fun t => (b : ℂ) * v t := nrm_mono fun t ht => by
    rw [norm_mul, norm_mul, Complex.norm_real, Real.norm_of_nonneg hb]
    exact mul_le_mul_of_nonneg_right (hx t ht) (norm_nonneg _)
  rw [nrm_mul, Complex.norm_real, Real.norm_of_nonneg hb] at h
  exact h

section
variable {F : Type} [FArith F] {val : F → ℝ} {fin : F → Prop} (hF : Binary64 F val fin)

theorem four_roundings {u : ℝ} (h0 : 0 ≤ u) (h1 : u ≤ 1 / 2 ^ 53) : (1 + u) ^ 4 - 1 ≤ 9 / 2 * (1 / 2 ^ 53) := by
  have h2 : u ^ 2 ≤ (1 / 2 ^ 53) ^ 2 := pow_le_pow_left₀ h0 h1 2
  have h3 : u ^ 3 ≤ (1 / 2 ^ 53) ^ 3 := pow_le_pow_left₀ h0 h1 3
  have h4 : u ^ 4 ≤ (1 / 2 ^ 53) ^ 4 := pow_le_pow_left₀ h0 h1 4
  have e : (1 + u) ^ 4 - 1 = 4 * u + 6 * u ^ 2 + 4 * u ^ 3 + u ^ 4 := by ring
  rw [e]
  norm_num at h1 h2 h3 h4 ⊢
  linarith

theorem range_prod {α β μ : ℝ} (hα : 1 / 2 ^ 440 ≤ α) (hβ : 1 / 2 ^ 440 ≤ β) (hμ : μ = α / 2 ^ 20) :
    1 / 2 ^ 1010 ≤ μ ∧ 1 / 2 ^ 1010 ≤ 2 * β ∧ 1 / 2 ^ 1010 ≤ μ * (2 * β) := by
  have b : (0:ℝ) < 1 / 2 ^ 440 := by positivity
  have h1 : 1 / 2 ^ 460 ≤ μ := by
    rw [hμ, show (460:ℕ) = 440 + 20 from rfl, pow_add, ← div_div]
    exact div_le_div_of_nonneg_right hα (by positivity)
  have lo : ∀ k ≤ 1010, (1:ℝ) / 2 ^ 1010 ≤ 1 / 2 ^ k := fun k hk =>
    one_div_le_one_div_of_le (by positivity) (pow_le_pow_right₀ (by norm_num) hk)
  refine ⟨le_trans (lo _ (by norm_num)) h1, le_trans (lo 440 (by norm_num)) (by linarith), ?_⟩
  refine le_trans (lo (460 + 440) (by norm_num)) ?_
  rw [pow_add, ← one_div_mul_one_div]
  exact mul_le_mul h1 (by linarith) b.le (le_trans (by positivity) h1)

theorem range_top {α β : ℝ} (h0 : 0 ≤ α) (h1 : 0 ≤ β) (hα : α ≤ 2 ^ 420) (hβ : β ≤ 2 ^ 420) : 2 * α * (2 * β) ≤ 2 ^ 1019 ∧ 2 * α ≤ 2 ^ 1019 ∧ 2 * β ≤ 2 ^ 1019 := by
  have up : ∀ k ≤ 1019, (2:ℝ) ^ k ≤ 2 ^ 1019 := fun k hk => pow_le_pow_right₀ (by norm_num) hk
  have e : (2:ℝ) ^ 421 = 2 * 2 ^ 420 := by rw [show 421 = 1 + 420 from rfl, pow_add, pow_one]
  have a1 : 2 * α ≤ 2 ^ 421 := by rw [e]; linarith
  have a2 : 2 * β ≤ 2 ^ 421 := by rw [e]; linarith
  refine ⟨?_, le_trans a1 (up _ (by norm_num)), le_trans a2 (up _ (by norm_num))⟩
  refine le_trans (mul_le_mul a1 a2 (by linarith) (by positivity)) ?_
  rw [← pow_add]
  exact up _ (by norm_num)

include hF in
/-- The vectors `X'`, `Y'` are `X`, `Y` up to relative errors `κ` in the 2-norm: so is their product (computed with `operator*` of
`complex_t`), up to `2κ + κ² + 6·2⁻⁵²` times the largest value that the norm of the product can have. -/
theorem prod_err {S : Finset ℕ} (hS : (#S : ℝ) ≤ 2 ^ 31) {X Y : ℕ → ℂ} {X' Y' : ℕ → Xmm F} {α β κ : ℝ} (hα : 1 / 2 ^ 440 ≤ α)
    (hα' : α ≤ 2 ^ 420) (hβ : 1 / 2 ^ 440 ≤ β) (hβ' : β ≤ 2 ^ 420) (hκ : 0 ≤ κ) (hκ' : κ ≤ 1 / 16)
    (fX : ∀ t ∈ S, cfin fin (X' t)) (fY : ∀ t ∈ S, cfin fin (Y' t)) (nX : nrm S X ≤ α) (nY : nrm S Y ≤ β)
    (eX : nrm S (fun t => cval val (X' t) - X t) ≤ κ * α) (eY : nrm S (fun t => cval val (Y' t) - Y t) ≤ κ * β) :
    (∀ t ∈ S, cfin fin (Cpx.mul (X' t) (Y' t))) ∧
      nrm S (fun t => cval val (Cpx.mul (X' t) (Y' t)) - X t * Y t) ≤ ((2 + κ) * κ + 6 / 2 ^ 52) * (α * β) := by
  have α0 : 0 < α := lt_of_lt_of_le (by positivity) hα
  have β0 : 0 < β := lt_of_lt_of_le (by positivity) hβ
  have mX : nrm S (fun t => cval val (X' t)) ≤ (1 + κ) * α := by
    have := nrm_add_le (A := S) (v := fun t => cval val (X' t) - X t) (w := X)
    simp only [sub_add_cancel] at this
    linarith
  have mY : nrm S (fun t => cval val (Y' t)) ≤ (1 + κ) * β := by
    have := nrm_add_le (A := S) (v := fun t => cval val (Y' t) - Y t) (w := Y)
    simp only [sub_add_cancel] at this
    linarith
  obtain ⟨r1, r2, r3⟩ := range_prod hα hβ rfl
  obtain ⟨t1, t2, t3⟩ := range_top α0.le β0.le hα' hβ'
  set μ := α / 2 ^ 20 with hμ
  have μ0 : 0 ≤ μ := by positivity
  have step : ∀ t ∈ S, cfin fin (Cpx.mul (X' t) (Y' t)) ∧
      ‖cval val (Cpx.mul (X' t) (Y' t)) - cval val (X' t) * cval val (Y' t)‖ ≤ (‖cval val (X' t)‖ + μ) * (2 * β) * (9 / 2 * (1 / 2 ^ 53)) := by
    intro t ht
    have bX : ‖cval val (X' t)‖ ≤ (1 + κ) * α := le_trans (norm_le_nrm (v := fun t => cval val (X' t)) ht) mX
    have bY : ‖cval val (Y' t)‖ ≤ (1 + κ) * β := le_trans (norm_le_nrm (v := fun t => cval val (Y' t)) ht) mY
    have bX2 : ‖cval val (X' t)‖ + μ ≤ 2 * α := by
      have : μ ≤ α / 2 := by rw [hμ]; exact div_le_div_of_nonneg_left α0.le (by norm_num) (by norm_num)
      nlinarith
    have bY2 : ‖cval val (Y' t)‖ ≤ 2 * β := by nlinarith
    have n0 := norm_nonneg (cval val (X' t))
    have aX : (dblFlt hF).Ap (cval val (X' t)) (X' t) (‖cval val (X' t)‖ + μ) 0 :=
      ⟨le_trans r1 (by linarith), fun _ _ => ⟨fX t ht, by linarith, by simp [Flt.cv, dblFlt]⟩⟩
    have aY : (dblFlt hF).Ap (cval val (Y' t)) (Y' t) (2 * β) 0 :=
      ⟨r2, fun _ _ => ⟨fY t ht, bY2, by simp [Flt.cv, dblFlt]⟩⟩
    have hp := Flt.Ap.mul_comp Flt.mulOK_cpx aX aY (le_trans bX2 t2) t3
      (le_trans r3 (mul_le_mul_of_nonneg_right (by linarith) (by linarith)))
    obtain ⟨f, -, e⟩ := hp.2 (le_trans (mul_le_mul_of_nonneg_right bX2 (by linarith)) t1) (by show 0 + 0 + 4 ≤ 2 ^ 52; norm_num)
    refine ⟨f, le_trans e (mul_le_mul_of_nonneg_left ?_ (mul_nonneg (by linarith) (by linarith)))⟩
    exact four_roundings (by show (0:ℝ) ≤ 1 / 2 ^ 53; positivity) (by show (1:ℝ) / 2 ^ 53 ≤ _; exact le_rfl)
  refine ⟨fun t ht => (step t ht).1, ?_⟩
  have hsq : √(#S : ℝ) ≤ 2 ^ 16 := by
    rw [Real.sqrt_le_left (by positivity)]
    exact le_trans hS (by norm_num)
  -- the roundings of the products
  have e1 : nrm S (fun t => cval val (Cpx.mul (X' t) (Y' t)) - cval val (X' t) * cval val (Y' t)) ≤ 6 / 2 ^ 52 * (α * β) := by
    have h1 : nrm S (fun t => cval val (Cpx.mul (X' t) (Y' t)) - cval val (X' t) * cval val (Y' t)) ≤
        nrm S fun t => ((2 * β * (9 / 2 * (1 / 2 ^ 53)) : ℝ) : ℂ) * ((‖cval val (X' t)‖ + μ : ℝ) : ℂ) := nrm_mono fun t ht => by
      rw [norm_mul, Complex.norm_real, Complex.norm_real, Real.norm_of_nonneg (by positivity), Real.norm_of_nonneg (by positivity)]
      refine le_trans (step t ht).2 (le_of_eq (by ring))
    rw [nrm_mul, Complex.norm_real, Real.norm_of_nonneg (by positivity)] at h1
    refine le_trans h1 ?_
    have h2 := nrm_shift (A := S) (v := fun t => cval val (X' t)) μ0
    have h3 : √(#S : ℝ) * μ ≤ α / 16 := by
      rw [hμ]
      calc √(#S : ℝ) * (α / 2 ^ 20) ≤ 2 ^ 16 * (α / 2 ^ 20) := mul_le_mul_of_nonneg_right hsq (by positivity)
        _ = α / 16 := by ring
    have h4 : nrm S (fun t => ((‖cval val (X' t)‖ + μ : ℝ) : ℂ)) ≤ 9 / 8 * α := by nlinarith
    refine le_trans (mul_le_mul_of_nonneg_left h4 (by positivity)) ?_
    have : 0 ≤ α * β := by positivity
    norm_num
    nlinarith
  -- the errors of the factors
  have e2 : nrm S (fun t => cval val (X' t) * (cval val (Y' t) - Y t)) ≤ (1 + κ) * α * (κ * β) :=
    le_trans (nrm_mul_le (by positivity) fun t ht => le_trans (norm_le_nrm (v := fun t => cval val (X' t)) ht) mX)
      (mul_le_mul_of_nonneg_left eY (by positivity))
  have e3 : nrm S (fun t => Y t * (cval val (X' t) - X t)) ≤ β * (κ * α) :=
    le_trans (nrm_mul_le β0.le fun t ht => le_trans (norm_le_nrm ht) nY) (mul_le_mul_of_nonneg_left eX β0.le)
  have s1 := nrm_add_le (A := S) (v := fun t => cval val (X' t) * (cval val (Y' t) - Y t))
    (w := fun t => Y t * (cval val (X' t) - X t))
  have s2 := nrm_add_le (A := S) (v := fun t => cval val (Cpx.mul (X' t) (Y' t)) - cval val (X' t) * cval val (Y' t))
    (w := fun t => cval val (X' t) * (cval val (Y' t) - Y t) + Y t * (cval val (X' t) - X t))
  have s3 : nrm S (fun t => cval val (Cpx.mul (X' t) (Y' t)) - X t * Y t) =
      nrm S fun t => cval val (Cpx.mul (X' t) (Y' t)) - cval val (X' t) * cval val (Y' t) +
        (cval val (X' t) * (cval val (Y' t) - Y t) + Y t * (cval val (X' t) - X t)) := nrm_congr fun t _ => by ring
  rw [s3]
  calc _ ≤ 6 / 2 ^ 52 * (α * β) + ((1 + κ) * α * (κ * β) + β * (κ * α)) := by linarith
    _ = _ := by ring

end
end OTFFT
