/-
C69: relative accuracy of Bluestein's algorithm in the root-mean-square sense, in IEEE double precision.
-/
import Verif.Proof.L2Blue
import Verif.Props.AccuracyBlue
import Verif.Props.AccuracyRmsReal

namespace OTFFT.Props

open Finset

/-- the relative error of Bluestein's algorithm of length `n` in units of `2⁻⁵²` -/
noncomputable def blueWeight2 (n : ℕ) : ℝ := (165 * Nat.clog 2 n + 222) * (6 * √n)

theorem blueWeight2_nonneg (n : ℕ) : 0 ≤ blueWeight2 n := by unfold blueWeight2; positivity

theorem blueWeight2_le {n : ℕ} (h29 : n ≤ 2 ^ 29) : blueWeight2 n / 2 ^ 52 ≤ 1 / 2 ^ 20 := by
  have hw : (165 * (Nat.clog 2 n : ℝ) + 222) ≤ 2 ^ 13 := by
    have : 165 * Nat.clog 2 n + 222 ≤ 2 ^ 13 := by
      have := blue_weight h29
      omega
    exact_mod_cast this
  have hq : √(n:ℝ) ≤ 2 ^ 15 := by
    rw [Real.sqrt_le_left (by positivity)]
    have : (n:ℝ) ≤ 2 ^ 29 := by exact_mod_cast h29
    exact le_trans this (by norm_num)
  unfold blueWeight2
  calc (165 * (Nat.clog 2 n : ℝ) + 222) * (6 * √n) / 2 ^ 52 ≤ 2 ^ 13 * (6 * 2 ^ 15) / 2 ^ 52 := by gcongr
    _ ≤ _ := by norm_num

section
variable {F : Type} [FArith F] [Inhabited F] {val : F → ℝ} {fin : F → Prop} {n : ℕ} {A : ℝ}

theorem blueOut_err2 (hF : Binary64 F val fin) (i : Target) (h1 : 1 ≤ n) (h29 : n ≤ 2 ^ 29) (hA : 1 / 2 ^ 960 ≤ A)
    (hG : n * (n * A) ≤ 2 ^ 1011) {v : ℕ → Xmm F} (hv : ∀ t < n, cfin fin (v t)) (hvA : norm2 n (fun t => cval val (v t)) ≤ A)
    (thr : Thr) (e : Entry) :
    letI := i.arith F
    (∀ t < n, cfin fin (blueOutF (Xmm F) thr e n v t)) ∧
      norm2 n (fun t => cval val (blueOutF (Xmm F) thr e n v t) - e.exact n (fun j => cval val (v j)) t) ≤
        blueWeight2 n / 2 ^ 52 * (e.factor n * √n * A) := by
  letI := i.arith F
  have hA0 : 0 ≤ A := le_trans (by positivity) hA
  have hs0 := (ApLaws.scR_pos n e.mode h1).le
  have hs := ApLaws.scR_range n e.mode h1 (by omega)
  have hex : ∀ t < n, blueOutF ℂ thr e n (fun j => cval val (v j)) t = e.exact n (fun j => cval val (v j)) t := fun t ht => by
    rw [blueOutF_C thr e h1 h29 _ ht, exact_eq]
  rcases Nat.lt_or_ge n 2 with h | h2
  · have e1 : ∀ (z : ℕ → Xmm F) (t : ℕ), blueOutF (Xmm F) thr e n z t = z t := fun z t => by
      unfold blueOutF blueRes
      rw [if_pos h]
    have e2 : ∀ (z : ℕ → ℂ) (t : ℕ), blueOutF ℂ thr e n z t = z t := fun z t => by
      unfold blueOutF blueRes
      rw [if_pos h]
    refine ⟨fun t ht => by rw [e1]; exact hv t ht, ?_⟩
    rw [norm2_eq, nrm_congr (w := fun _ => 0) fun t ht => by rw [e1, ← hex t (mem_range.1 ht), e2, sub_self], nrm_zero]
    have := blueWeight2_nonneg n
    rw [← factor_eq]
    positivity
  have e9 : (2:ℝ) ^ 1019 = 256 * 2 ^ 1011 := by rw [show 1019 = 8 + 1011 from rfl, pow_add]; norm_num
  obtain ⟨φ, h⟩ := (vap_in hF hv hA0 hvA).blue thr ((dblFlt hF).apBlue i) ((dblFlt hF).apReal i)
    (by show 10000 ≤ 2 ^ 52; norm_num) h2 h29 hA0 e (by
      refine le_trans ?_ (phi_ok hs.1 hA)
      show (2:ℝ) ^ 16 * (1 / 2 ^ 1010) ≤ _
      exact mul_le_mul_of_nonneg_right (by norm_num) (by positivity)) (by
      show _ ≤ (2:ℝ) ^ 1019
      rw [e9]
      clear e9
      generalize (2:ℝ) ^ 1011 = B at hG ⊢
      linarith) (by
      show _ ≤ (2:ℝ) ^ 1019
      have : (n:ℝ) ≤ 2 ^ 29 := by exact_mod_cast h29
      exact le_trans (b := 2 ^ 40) (le_trans (mul_le_mul_of_nonneg_left this (by norm_num)) (by norm_num)) (pow_le_pow_right₀ (by norm_num) (by norm_num)))
  rw [show scR n e.mode * (9 * (n * A)) = scR n e.mode * (6 * n) * (3 / 2 * A) by ring] at h
  have hw := blue_weight h29
  obtain ⟨a, b⟩ := vap_out hF (by positivity) hA0 h (by omega)
  refine ⟨a, ?_⟩
  rw [norm2_eq] at b ⊢
  rw [nrm_congr (w := fun t => cval val (blueOutF (Xmm F) thr e n v t) - blueOutF ℂ thr e n (fun j => cval val (v j)) t)
    fun t ht => by rw [hex t (mem_range.1 ht)]]
  refine le_trans b (le_of_eq ?_)
  have qq : √(n:ℝ) * √n = n := Real.mul_self_sqrt (by positivity)
  unfold blueWeight2
  rw [factor_eq]
  push_cast
  linear_combination -(165 * (Nat.clog 2 n : ℝ) + 222) * 6 / 2 ^ 52 * e.factor n * A * qq

variable {w : World (Xmm F)} {x : Ptr} {v : ℕ → Xmm F}

/-- C69: Bluestein's algorithm in IEEE double precision, every length from 1 to 2^29, every entry point, instruction set and threshold: every
result is finite, and the 2-norm of the error is at most `(165 ⌈log₂ n⌉ + 222) · 6 √n · 2⁻⁵² · (factor · √n · A)`, where `A` bounds the
2-norm of the input. -/
theorem C69_rms (hF : Binary64 F val fin) (i : Target) (thr : Thr) (h1 : 1 ≤ n) (h29 : n ≤ 2 ^ 29) (hx : UserArray w x n v)
    (hA : 1 / 2 ^ 960 ≤ A) (hG : n * (n * A) ≤ 2 ^ 1011) (hv : ∀ t < n, cfin fin (v t)) (hvA : norm2 n (fun t => cval val (v t)) ≤ A)
    (e : Entry) :
    letI := i.arith F
    ∃ out : ℕ → Xmm F, Computes (bluesteinFFT (Xmm F) thr) n [(e, x)] w x n out ∧ (∀ t < n, cfin fin (out t)) ∧
      norm2 n (fun t => cval val (out t) - e.exact n (fun j => cval val (v j)) t) ≤
        (165 * Nat.clog 2 n + 222) * (6 * √n) / 2 ^ 52 * (e.factor n * √n * A) := by
  letI := i.arith F
  exact ⟨_, ComputesIn.toComputes (Bluestein.computes (thr := thr) hx.wf h1 h29 hx.arr [e]) (Set.empty_subset _) (fun _ _ => rfl),
    blueOut_err2 hF i h1 h29 hA hG hv hvA thr e⟩

/-- C69: so the relative error of the whole result vector is at most `(165 ⌈log₂ n⌉ + 222) · 6 √n · 2⁻⁵²`. -/
theorem C69_relative (hF : Binary64 F val fin) (i : Target) (thr : Thr) (h1 : 1 ≤ n) (h29 : n ≤ 2 ^ 29) (hx : UserArray w x n v)
    (hv : ∀ t < n, cfin fin (v t)) (hlo : 1 / 2 ^ 960 ≤ norm2 n (fun t => cval val (v t)))
    (hhi : n * (n * norm2 n (fun t => cval val (v t))) ≤ 2 ^ 1011) (e : Entry) :
    letI := i.arith F
    ∃ out : ℕ → Xmm F, Computes (bluesteinFFT (Xmm F) thr) n [(e, x)] w x n out ∧ (∀ t < n, cfin fin (out t)) ∧
      norm2 n (fun t => cval val (out t) - e.exact n (fun j => cval val (v j)) t) ≤
        (165 * Nat.clog 2 n + 222) * (6 * √n) / 2 ^ 52 * norm2 n (e.exact n fun j => cval val (v j)) := by
  letI := i.arith F
  rw [exact_norm2 h1]
  exact C69_rms hF i thr h1 h29 hx hlo hhi hv le_rfl e

/-- a round trip, for data of 2-norm at most `A` -/
theorem blue_trip_err2 (hF : Binary64 F val fin) (i : Target) (thr : Thr) (h1 : 1 ≤ n) (h29 : n ≤ 2 ^ 29)
    (hv : ∀ t < n, cfin fin (v t)) {A : ℝ} (hlo : 1 / 2 ^ 900 ≤ A) (hhi : n * (n * (n * A)) ≤ 2 ^ 1010)
    (hvA : norm2 n (fun t => cval val (v t)) ≤ A) (f g : Entry)
    (hfg : (f, g) ∈ [(Entry.fwd, Entry.inv), (.fwd, .inv0), (.fwdn, .inv), (.fwdn, .inv0), (.fwd0, .invn), (.fwdu, .invu)] ∨
      (g, f) ∈ [(Entry.fwd, Entry.inv), (.fwd, .inv0), (.fwdn, .inv), (.fwdn, .inv0), (.fwd0, .invn), (.fwdu, .invu)]) :
    letI := i.arith F
    (∀ t < n, cfin fin (blueOutF (Xmm F) thr g n (blueOutF (Xmm F) thr f n v) t)) ∧
      norm2 n (fun t => cval val (blueOutF (Xmm F) thr g n (blueOutF (Xmm F) thr f n v) t) - cval val (v t)) ≤
        3 * ((165 * Nat.clog 2 n + 222) * (6 * √n) / 2 ^ 52) * A := by
  letI := i.arith F
  obtain ⟨hgf, hsc⟩ := blue_pair h1 hfg
  have hsc' := scR_pair hsc
  have hA0 : 0 ≤ A := le_trans (by positivity) hlo
  have hn1 : (1:ℝ) ≤ n := by exact_mod_cast h1
  have qq : √(n:ℝ) * √n = n := Real.mul_self_sqrt (by positivity)
  have q1 : 1 ≤ √(n:ℝ) := Real.one_le_sqrt.2 hn1
  have qn : √(n:ℝ) ≤ n := by nlinarith
  have hsf := ApLaws.scR_range n f.mode h1 (by omega)
  have hsg := ApLaws.scR_range n g.mode h1 (by omega)
  rw [factor_eq] at hsf hsg
  rw [factor_eq, factor_eq] at hsc'
  have hnA : 0 ≤ (n:ℝ) * (n * A) := by positivity
  have e1 := blueOut_err2 hF i h1 h29
    (le_trans (one_div_le_one_div_of_le (by positivity) (pow_le_pow_right₀ (by norm_num) (by norm_num))) hlo) (by
    refine le_trans ?_ (le_trans hhi (pow_le_pow_right₀ (by norm_num) (by norm_num)))
    nlinarith) hv hvA thr f
  have hκ := blueWeight2_le h29
  have hκ0 : 0 ≤ blueWeight2 n / 2 ^ 52 := div_nonneg (blueWeight2_nonneg n) (by positivity)
  show _ ∧ _ ≤ 3 * (blueWeight2 n / 2 ^ 52) * A
  obtain ⟨κ, hκd⟩ : ∃ κ, blueWeight2 n / 2 ^ 52 = κ := ⟨_, rfl⟩
  rw [hκd] at e1 hκ hκ0 ⊢
  set mid := blueOutF (Xmm F) thr f n v with hmid
  set s := f.factor n
  set s' := g.factor n
  have s0 : 0 < s := lt_of_lt_of_le (by positivity) hsf.1
  have s0' : 0 < s' := lt_of_lt_of_le (by positivity) hsg.1
  have hu : s' * √n * (s * √n) = 1 := by linear_combination s * s' * qq + hsc'
  set X := f.exact n (fun j => cval val (v j)) with hX
  have nX : norm2 n X ≤ s * √n * A := by
    rw [exact_norm2 h1 f]
    exact mul_le_mul_of_nonneg_left hvA (by positivity)
  set A2 := 2 * (s * √n * A) with hA2
  have hκ1 : κ ≤ 1 / 4 := le_trans hκ (by norm_num)
  have hnm : norm2 n (fun t => cval val (mid t)) ≤ (1 + κ) * (s * √n * A) := by
    have t1 := nrm_add_le (A := range n) (v := fun t => cval val (mid t) - X t) (w := X)
    simp only [sub_add_cancel] at t1
    have := e1.2
    rw [norm2_eq] at this nX ⊢
    linarith
  have hY0 : 0 ≤ s * √n * A := by positivity
  have e2 := blueOut_err2 hF i h1 h29 (A := A2) (by
      have h3 : (1:ℝ) / 2 ^ 31 * (1 / 2 ^ 900) ≤ s * √n * A :=
        mul_le_mul (by nlinarith [hsf.1]) hlo (by positivity) (by positivity)
      rw [one_div_mul_one_div, ← pow_add] at h3
      have : (1:ℝ) / 2 ^ 960 ≤ 1 / 2 ^ (31 + 900) := one_div_le_one_div_of_le (by positivity) (pow_le_pow_right₀ (by norm_num) (by norm_num))
      rw [hA2]
      linarith) (by
      have h3 : s * √n * A ≤ n * A := by
        refine mul_le_mul_of_nonneg_right ?_ hA0
        nlinarith [hsf.2]
      have h4 : n * (n * A2) ≤ 2 * (n * (n * (n * A))) := by
        have : (n:ℝ) * (n * (s * √n * A)) ≤ n * (n * (n * A)) := by gcongr
        rw [hA2]
        linarith
      refine le_trans h4 ?_
      rw [show (2:ℝ) ^ 1011 = 2 * 2 ^ 1010 by rw [← pow_succ']]
      linarith) e1.1 (by rw [hA2]; nlinarith) thr g
  refine ⟨e2.1, ?_⟩
  rw [hκd] at e2
  have hback : ∀ t < n, g.exact n X t = cval val (v t) := by
    intro t ht
    rw [exact_eq, xdft_congr _ (fun j _ => exact_eq f n _ j), xdft_smul, hgf, xdft_inv _ _ ht]
    linear_combination (cval val (v t)) * hsc
  have d1 := exact_norm2 h1 g fun t => cval val (mid t) - X t
  have d2 := nrm_add_le (A := range n)
    (v := fun t => cval val (blueOutF (Xmm F) thr g n mid t) - g.exact n (fun j => cval val (mid j)) t)
    (w := g.exact n fun t => cval val (mid t) - X t)
  have b1 := e1.2
  have b2 := e2.2
  rw [norm2_eq] at d1 b2 b1 ⊢
  rw [nrm_congr (w := fun t => cval val (blueOutF (Xmm F) thr g n mid t) - g.exact n (fun j => cval val (mid j)) t +
    g.exact n (fun t => cval val (mid t) - X t) t) fun t ht => by
      rw [← exact_sub, hback t (mem_range.1 ht)]; ring]
  refine le_trans d2 ?_
  rw [d1, norm2_eq]
  have b3 := mul_le_mul_of_nonneg_left b1 (by positivity : 0 ≤ s' * √n)
  refine le_trans (add_le_add b2 b3) (le_of_eq ?_)
  rw [hA2]
  linear_combination 3 * κ * A * hu


/-- C69: a transform and the matching inverse one, in either order, give the input back with a relative error of at most
`3 · (165 ⌈log₂ n⌉ + 222) · 6 √n · 2⁻⁵²` in the 2-norm. -/
theorem C69_roundtrip (hF : Binary64 F val fin) (i : Target) (thr : Thr) (h1 : 1 ≤ n) (h29 : n ≤ 2 ^ 29) (hx : UserArray w x n v)
    (hv : ∀ t < n, cfin fin (v t)) (hlo : 1 / 2 ^ 900 ≤ norm2 n (fun t => cval val (v t)))
    (hhi : n * (n * (n * norm2 n (fun t => cval val (v t)))) ≤ 2 ^ 1010) (f g : Entry)
    (hfg : (f, g) ∈ [(Entry.fwd, Entry.inv), (.fwd, .inv0), (.fwdn, .inv), (.fwdn, .inv0), (.fwd0, .invn), (.fwdu, .invu)] ∨
      (g, f) ∈ [(Entry.fwd, Entry.inv), (.fwd, .inv0), (.fwdn, .inv), (.fwdn, .inv0), (.fwd0, .invn), (.fwdu, .invu)]) :
    letI := i.arith F
    ∃ out : ℕ → Xmm F, Computes (bluesteinFFT (Xmm F) thr) n [(f, x), (g, x)] w x n out ∧ (∀ t < n, cfin fin (out t)) ∧
      norm2 n (fun t => cval val (out t) - cval val (v t)) ≤
        3 * ((165 * Nat.clog 2 n + 222) * (6 * √n) / 2 ^ 52) * norm2 n (fun t => cval val (v t)) := by
  letI := i.arith F
  exact ⟨_, ComputesIn.toComputes (Bluestein.computes (thr := thr) hx.wf h1 h29 hx.arr [f, g]) (Set.empty_subset _) (fun _ _ => rfl),
    blue_trip_err2 hF i thr h1 h29 hv hlo hhi le_rfl f g hfg⟩

end

/-! ### the hypotheses are met -/

/-- every length up to `2^20` (primes too), FMA instructions: the relative error of `fwd0` is below `10⁻⁸`, and that of a round trip below `2·10⁻⁸`,
for every input of 2-norm 1 -/
example (thr : Thr) {n : ℕ} (h1 : 1 ≤ n) (hn : n ≤ 2 ^ 20) (v : ℕ → Xmm R53) (hv : norm2 n (fun t => cval R53.val (v t)) = 1) :
    letI := (⟨true, true, true, false, true⟩ : Target).arith R53
    (∃ out : ℕ → Xmm R53, Computes (bluesteinFFT (Xmm R53) thr) n [(.fwd0, Ptr.base 1)] (oneArray n v) (Ptr.base 1) n out ∧
      norm2 n (fun t => cval R53.val (out t) - Entry.exact n .fwd0 (fun j => cval R53.val (v j)) t) ≤
        1 / 10 ^ 8 * norm2 n (Entry.exact n .fwd0 fun j => cval R53.val (v j))) ∧
    (∃ out : ℕ → Xmm R53, Computes (bluesteinFFT (Xmm R53) thr) n [(.fwdu, Ptr.base 1), (.invu, Ptr.base 1)] (oneArray n v) (Ptr.base 1) n out ∧
      norm2 n (fun t => cval R53.val (out t) - cval R53.val (v t)) ≤ 2 / 10 ^ 8) := by
  have hnr : (n:ℝ) ≤ 2 ^ 20 := by exact_mod_cast hn
  have hc : (Nat.clog 2 n : ℝ) ≤ 20 := by
    have : Nat.clog 2 n ≤ 20 := by
      have := Nat.clog_mono_right 2 hn
      rwa [Nat.clog_pow 2 20 (by norm_num)] at this
    exact_mod_cast this
  have hq : √(n:ℝ) ≤ 2 ^ 10 := by
    rw [Real.sqrt_le_left (by positivity)]
    exact le_trans hnr (by norm_num)
  have hw : (165 * (Nat.clog 2 n : ℝ) + 222) * (6 * √n) / 2 ^ 52 ≤ 1 / (15 * 10 ^ 7) := by
    calc (165 * (Nat.clog 2 n : ℝ) + 222) * (6 * √n) / 2 ^ 52 ≤ (165 * 20 + 222) * (6 * 2 ^ 10) / 2 ^ 52 := by gcongr
      _ ≤ _ := by norm_num
  have up : (n:ℝ) * (n * (n * 1)) ≤ 2 ^ 1010 := by
    calc (n:ℝ) * (n * (n * 1)) ≤ 2 ^ 20 * (2 ^ 20 * (2 ^ 20 * 1)) := by gcongr
      _ = 2 ^ 60 := by norm_num
      _ ≤ _ := pow_le_pow_right₀ (by norm_num) (by norm_num)
  have up2 : (n:ℝ) * (n * 1) ≤ 2 ^ 1011 := by
    calc (n:ℝ) * (n * 1) ≤ 2 ^ 20 * (2 ^ 20 * 1) := by gcongr
      _ = 2 ^ 40 := by norm_num
      _ ≤ _ := pow_le_pow_right₀ (by norm_num) (by norm_num)
  have lo : ∀ k : ℕ, (1:ℝ) / 2 ^ k ≤ 1 := fun k => div_le_one_of_le₀ (one_le_pow₀ (by norm_num)) (by positivity)
  constructor
  · obtain ⟨out, h, -, hb⟩ := @C69_relative R53 _ _ _ _ n _ _ _ rounded_laws ⟨true, true, true, false, true⟩ thr h1 (by omega) (oneArray_ok n v)
      (fun t _ => ⟨trivial, trivial⟩) (by rw [hv]; exact lo _) (by rw [hv]; exact up2) .fwd0
    exact ⟨out, h, le_trans hb (mul_le_mul_of_nonneg_right (le_trans hw (by norm_num)) (norm2_nonneg _ _))⟩
  · obtain ⟨out, h, -, hb⟩ := @C69_roundtrip R53 _ _ _ _ n _ _ _ rounded_laws ⟨true, true, true, false, true⟩ thr h1 (by omega) (oneArray_ok n v)
      (fun t _ => ⟨trivial, trivial⟩) (by rw [hv]; exact lo _) (by rw [hv]; exact up) .fwdu .invu (by simp)
    refine ⟨out, h, le_trans hb ?_⟩
    rw [hv, mul_one]
    norm_num at hw ⊢
    linarith

end OTFFT.Props
