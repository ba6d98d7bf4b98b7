/-
C48: accuracy of Bluestein's algorithm in IEEE double precision.
-/
import Verif.Proof.ApBlue
import Verif.Props.AccuracyReal
import Verif.Props.Bluestein

namespace OTFFT.Props

section
variable {F : Type} [FArith F] [Inhabited F] {val : F → ℝ} {fin : F → Prop} {n : ℕ} {M : ℝ}

theorem blue_weight (h29 : n ≤ 2 ^ 29) : Nat.clog 2 n ≤ 29 := by
  have := Nat.clog_mono_right 2 h29
  rwa [Nat.clog_pow 2 29 (by norm_num)] at this

theorem exact_eq (e : Entry) (n : ℕ) (x : ℕ → ℂ) (t : ℕ) : e.exact n x t = scC n e.mode * xdft e.isInv n x t := by
  rw [scC_eq]
  cases e <;> rfl

/-- the computed transform in terms of the pure function of the model -/
theorem blueOut_err (hF : Binary64 F val fin) (i : Target) (h1 : 1 ≤ n) (h29 : n ≤ 2 ^ 29) (hm : 1 / 2 ^ 970 ≤ M)
    (hM : n * (n * (n * M)) ≤ 2 ^ 1013) {v : ℕ → Xmm F} (hv : ∀ t < n, cfin fin (v t) ∧ ‖cval val (v t)‖ ≤ M) (thr : Thr) (e : Entry) :
    letI := i.arith F
    ∀ t < n, cfin fin (blueOutF (Xmm F) thr e n v t) ∧
      ‖cval val (blueOutF (Xmm F) thr e n v t) - e.exact n (fun j => cval val (v j)) t‖ ≤
        (150 * Nat.clog 2 n + 207) / 2 ^ 52 * (16 * (n * (n * (e.factor n * M)))) := by
  letI := i.arith F
  intro t ht
  have hM0 : 0 ≤ M := le_trans (by positivity) hm
  have hn1 : (1:ℝ) ≤ n := by exact_mod_cast h1
  have hG : 64 * (n * (n * (n * M))) ≤ (2:ℝ) ^ 1019 := by
    have e : (2:ℝ) ^ 1019 = 2 ^ 1013 * 64 := by rw [show 1019 = 1013 + 6 from rfl, pow_add]; norm_num
    rw [e]
    clear e
    generalize (2:ℝ) ^ 1013 = A at *
    linarith
  have h := ((dblFlt hF).apBlue i).blue_ap (thr := thr) (v := fun j => cval val (v j)) (v' := v) h1 h29 hG
    (scaled_ok h1 (by omega) e.mode hm) (fun t ht => in_cpx hF hm (hv t ht)) e rfl t ht
  have hw := blue_weight h29
  have hf : scR n e.mode = e.factor n := by cases e <;> rfl
  have hs := ApLaws.scR_range n e.mode h1 (by omega)
  have hs0 : 0 ≤ scR n e.mode := le_trans (by positivity) hs.1
  have hB : 16 * (n * (n * (scR n e.mode * M))) ≤ (2:ℝ) ^ 1019 := by
    refine le_trans ?_ hG
    have h1 : scR n e.mode * M ≤ M := by nlinarith [hs.2]
    have h2 : 0 ≤ (n:ℝ) * (n * M) := by positivity
    calc 16 * ((n:ℝ) * (n * (scR n e.mode * M))) ≤ 16 * (n * (n * M)) := by gcongr
      _ ≤ 64 * (n * (n * M)) := by linarith
      _ ≤ 64 * (n * (n * (n * M))) := by
        have : M ≤ n * M := by nlinarith
        gcongr
  have := out_err hF h hB (by omega)
  rw [blueOutF_C thr e h1 h29 _ ht, ← exact_eq, hf] at this
  refine ⟨this.1, le_trans this.2 (le_of_eq ?_)⟩
  push_cast
  ring

variable {w : World (Xmm F)} {x : Ptr} {v : ℕ → Xmm F}

/-- C48: Bluestein's algorithm, every length from 1 to 2^29, every entry point, normalisation, instruction set and threshold. Every
output is finite and differs from the exact transform of the input by at most `(150 ⌈log₂ n⌉ + 207) 2⁻⁵² · 16 n² factor M`. -/
theorem C48_bluestein (hF : Binary64 F val fin) (i : Target) (thr : Thr) (h1 : 1 ≤ n) (h29 : n ≤ 2 ^ 29) (hx : UserArray w x n v)
    (hm : 1 / 2 ^ 970 ≤ M) (hM : n * (n * (n * M)) ≤ 2 ^ 1013) (hv : ∀ t < n, cfin fin (v t) ∧ ‖cval val (v t)‖ ≤ M) (e : Entry) :
    letI := i.arith F
    ∃ out : ℕ → Xmm F, Computes (bluesteinFFT (Xmm F) thr) n [(e, x)] w x n out ∧
      ∀ t < n, cfin fin (out t) ∧ ‖cval val (out t) - e.exact n (fun j => cval val (v j)) t‖ ≤
        (150 * Nat.clog 2 n + 207) / 2 ^ 52 * (16 * (n * (n * (e.factor n * M)))) := by
  letI := i.arith F
  exact ⟨_, ComputesIn.toComputes (Bluestein.computes (thr := thr) hx.wf h1 h29 hx.arr [e]) (Set.empty_subset _) (fun _ _ => rfl),
    blueOut_err hF i h1 h29 hm hM hv thr e⟩

theorem xdft_norm {inv : Bool} {u : ℕ → ℂ} {B : ℝ} (hu : ∀ j < n, ‖u j‖ ≤ B) (t : ℕ) : ‖xdft inv n u t‖ ≤ n * B := by
  rw [xdft_sum]
  refine le_trans (norm_sum_le _ _) (le_trans (Finset.sum_le_sum (g := fun _ => B) fun j hj => ?_) (by simp))
  rw [norm_mul, norm_pow, om_norm, one_pow, mul_one]
  exact hu j (Finset.mem_range.1 hj)

theorem exact_norm {u : ℕ → ℂ} {B : ℝ} (h1 : 1 ≤ n) (h31 : n ≤ 2 ^ 31) (e : Entry) (hu : ∀ j < n, ‖u j‖ ≤ B) (t : ℕ) :
    ‖e.exact n u t‖ ≤ e.factor n * (n * B) := by
  have hs := ApLaws.scR_range n e.mode h1 h31
  have hs0 : 0 ≤ scR n e.mode := le_trans (by positivity) hs.1
  have hf : scR n e.mode = e.factor n := by cases e <;> rfl
  rw [exact_eq, scC_eq, norm_mul, Complex.norm_real, Real.norm_of_nonneg hs0, ← hf]
  exact mul_le_mul_of_nonneg_left (xdft_norm hu t) hs0

theorem exact_sub (e : Entry) (u v : ℕ → ℂ) (t : ℕ) : e.exact n u t - e.exact n v t = e.exact n (fun j => u j - v j) t := by
  rw [exact_eq, exact_eq, exact_eq, xdft_sum, xdft_sum, xdft_sum, ← mul_sub, ← Finset.sum_sub_distrib]
  congr 1
  exact Finset.sum_congr rfl fun j _ => by ring

/-- the matching pairs of transforms, in either order -/
theorem blue_pair (h1 : 1 ≤ n) {f g : Entry}
    (hfg : (f, g) ∈ [(Entry.fwd, Entry.inv), (.fwd, .inv0), (.fwdn, .inv), (.fwdn, .inv0), (.fwd0, .invn), (.fwdu, .invu)] ∨
      (g, f) ∈ [(Entry.fwd, Entry.inv), (.fwd, .inv0), (.fwdn, .inv), (.fwdn, .inv0), (.fwd0, .invn), (.fwdu, .invu)]) :
    g.isInv = (!f.isInv) ∧ scC n f.mode * scC n g.mode * n = 1 := by
  rcases hfg with h | h
  · obtain ⟨a, b, c⟩ := real_pair h1 h
    exact ⟨by rw [a, b]; rfl, c⟩
  · obtain ⟨a, b, c⟩ := real_pair h1 h
    exact ⟨by rw [a, b]; rfl, by rw [mul_comm (scC n f.mode)]; exact c⟩

/-- C48: a transform by Bluestein's algorithm and the matching inverse one, in either order, give the input back up to
`(150 ⌈log₂ n⌉ + 207) 2⁻⁵² · 48 n² M`. -/
theorem C48_roundtrip (hF : Binary64 F val fin) (i : Target) (thr : Thr) (h1 : 1 ≤ n) (h29 : n ≤ 2 ^ 29) (hx : UserArray w x n v)
    (hm : 1 / 2 ^ 970 ≤ M) (hM : n * (n * (n * (n * M))) ≤ 2 ^ 1012) (hv : ∀ t < n, cfin fin (v t) ∧ ‖cval val (v t)‖ ≤ M) (f g : Entry)
    (hfg : (f, g) ∈ [(Entry.fwd, Entry.inv), (.fwd, .inv0), (.fwdn, .inv), (.fwdn, .inv0), (.fwd0, .invn), (.fwdu, .invu)] ∨
      (g, f) ∈ [(Entry.fwd, Entry.inv), (.fwd, .inv0), (.fwdn, .inv), (.fwdn, .inv0), (.fwd0, .invn), (.fwdu, .invu)]) :
    letI := i.arith F
    ∃ out : ℕ → Xmm F, Computes (bluesteinFFT (Xmm F) thr) n [(f, x), (g, x)] w x n out ∧
      ∀ t < n, cfin fin (out t) ∧ ‖cval val (out t) - cval val (v t)‖ ≤ (150 * Nat.clog 2 n + 207) / 2 ^ 52 * (48 * (n * (n * M))) := by
  letI := i.arith F
  obtain ⟨hgf, hsc⟩ := blue_pair h1 hfg
  have hsc := scR_pair hsc
  refine ⟨_, ComputesIn.toComputes (Bluestein.computes (thr := thr) hx.wf h1 h29 hx.arr [f, g]) (Set.empty_subset _) (fun _ _ => rfl), ?_⟩
  simp only [List.foldl]
  have hM0 : 0 ≤ M := le_trans (by positivity) hm
  have hn1 : (1:ℝ) ≤ n := by exact_mod_cast h1
  have hn29 : (n:ℝ) ≤ 2 ^ 29 := by exact_mod_cast h29
  have hM3 : n * (n * (n * M)) ≤ (2:ℝ) ^ 1013 := by
    have h0 : 0 ≤ (n:ℝ) * (n * (n * M)) := by positivity
    exact le_trans (by nlinarith) (le_trans hM (pow_le_pow_right₀ (by norm_num) (by norm_num)))
  have e1 := blueOut_err hF i h1 h29 hm hM3 hv thr f
  have hs := ApLaws.scR_range n f.mode h1 (by omega)
  have hs' := ApLaws.scR_range n g.mode h1 (by omega)
  rw [show scR n f.mode = f.factor n by cases f <;> rfl] at hs hsc
  rw [show scR n g.mode = g.factor n by cases g <;> rfl] at hs' hsc
  have hf0 : 0 ≤ f.factor n := le_trans (by positivity) hs.1
  have hg0 : 0 ≤ g.factor n := le_trans (by positivity) hs'.1
  have hw : (150 * (Nat.clog 2 n : ℝ) + 207) ≤ 2 ^ 13 := by
    have : 150 * Nat.clog 2 n + 207 ≤ 2 ^ 13 := by
      have := blue_weight h29
      omega
    exact_mod_cast this
  set κ : ℝ := (150 * (Nat.clog 2 n : ℝ) + 207) / 2 ^ 52 with hκ
  have hκ0 : 0 ≤ κ := by positivity
  have hκn : κ * (16 * n) ≤ 1 := by
    have h2 : κ ≤ 2 ^ 13 / 2 ^ 52 := by rw [hκ]; gcongr
    calc κ * (16 * n) ≤ 2 ^ 13 / 2 ^ 52 * (16 * 2 ^ 29) := by gcongr
      _ ≤ 1 := by norm_num
  clear_value κ
  set mid := blueOutF (Xmm F) thr f n v with hmid
  set s := f.factor n
  set s' := g.factor n
  have hnf : 1 ≤ n * s := by
    by_contra h
    push Not at h
    have h3 : s' ≤ 1 := hs'.2
    have : s * s' * n < 1 := by
      calc s * s' * n = n * s * s' := by ring
        _ ≤ n * s := by nlinarith [mul_nonneg (by linarith : (0:ℝ) ≤ n) hf0]
        _ < 1 := h
    linarith
  have hmidM : ∀ t < n, cfin fin (mid t) ∧ ‖cval val (mid t)‖ ≤ 2 * (n * (s * M)) := by
    intro t ht
    refine ⟨(e1 t ht).1, ?_⟩
    have ha := exact_norm (u := fun j => cval val (v j)) h1 (by omega) f (fun j hj => (hv j hj).2) t
    have hb := (e1 t ht).2
    have hc : κ * (16 * (n * (n * (s * M)))) ≤ n * (s * M) := by
      have : 0 ≤ (n:ℝ) * (s * M) := by positivity
      calc κ * (16 * (n * (n * (s * M)))) = κ * (16 * n) * (n * (s * M)) := by ring
        _ ≤ 1 * (n * (s * M)) := mul_le_mul_of_nonneg_right hκn this
        _ = _ := one_mul _
    have hd : ‖cval val (mid t)‖ ≤ ‖cval val (mid t) - f.exact n (fun j => cval val (v j)) t‖ + ‖f.exact n (fun j => cval val (v j)) t‖ := by
      have := norm_add_le (cval val (mid t) - f.exact n (fun j => cval val (v j)) t) (f.exact n (fun j => cval val (v j)) t)
      rwa [sub_add_cancel] at this
    have : s * (n * M) = n * (s * M) := by ring
    linarith
  have hmid0 : 1 / 2 ^ 970 ≤ 2 * (n * (s * M)) := by
    refine le_trans hm ?_
    have := mul_le_mul_of_nonneg_right hnf hM0
    linarith
  have hmidG : n * (n * (n * (2 * (n * (s * M))))) ≤ (2:ℝ) ^ 1013 := by
    have e : (2:ℝ) ^ 1013 = 2 ^ 1012 * 2 := by rw [← pow_succ]
    rw [e]
    clear e hm hmid0
    have h3 : s * M ≤ M := by nlinarith [hs.2]
    have : (n:ℝ) * (n * (n * (2 * (n * (s * M))))) ≤ n * (n * (n * (2 * (n * M)))) := by gcongr
    generalize (2:ℝ) ^ 1012 = A at *
    linarith
  have e2 := blueOut_err hF i h1 h29 hmid0 hmidG hmidM thr g
  intro t ht
  refine ⟨(e2 t ht).1, ?_⟩
  have hback : g.exact n (fun j => f.exact n (fun j => cval val (v j)) j) t = cval val (v t) := by
    have hx : ∀ j, f.exact n (fun j => cval val (v j)) j = scC n f.mode * xdft f.isInv n (fun j => cval val (v j)) j := exact_eq f n _
    rw [exact_eq, xdft_congr _ (fun j _ => hx j), xdft_smul, hgf, xdft_inv _ _ ht]
    have := (blue_pair h1 hfg).2
    linear_combination (cval val (v t)) * this
  have e3 := exact_norm (n := n) (B := κ * (16 * (n * (n * (s * M))))) h1 (by omega) g (fun j hj => (e1 j hj).2) t
  rw [← exact_sub, hback] at e3
  have e4 := (e2 t ht).2
  rw [← hκ] at e4
  have tri := norm_add_le (cval val (blueOutF (Xmm F) thr g n mid t) - g.exact n (fun j => cval val (mid j)) t)
    (g.exact n (fun j => cval val (mid j)) t - cval val (v t))
  rw [sub_add_sub_cancel] at tri
  have q1 : κ * (16 * (n * (n * (s' * (2 * (n * (s * M))))))) = κ * (32 * (n * (n * M))) := by
    linear_combination κ * 32 * (n:ℝ) * n * M * hsc
  have q2 : s' * (n * (κ * (16 * (n * (n * (s * M)))))) = κ * (16 * (n * (n * M))) := by
    linear_combination κ * 16 * (n:ℝ) * n * M * hsc
  have q3 : κ * (32 * ((n:ℝ) * (n * M))) + κ * (16 * (n * (n * M))) = κ * (48 * (n * (n * M))) := by ring
  rw [← q3, ← q1, ← q2]
  exact le_trans tri (add_le_add e4 e3)

end

/-! ### the hypotheses are met -/

/-- all lengths up to 100 (prime ones too), FMA instructions: the error of `fwd0` is below `10⁻⁷` for inputs of magnitude 1, and
the error of a round trip below `10⁻⁶` -/
example (thr : Thr) {n : ℕ} (h1 : 1 ≤ n) (hn : n ≤ 100) (v : ℕ → Xmm R53) (hv : ∀ t < n, ‖cval R53.val (v t)‖ ≤ 1) :
    letI := (⟨true, true, true, false, true⟩ : Target).arith R53
    (∃ out : ℕ → Xmm R53, Computes (bluesteinFFT (Xmm R53) thr) n [(.fwd0, Ptr.base 1)] (oneArray n v) (Ptr.base 1) n out ∧
      ∀ t < n, ‖cval R53.val (out t) - Entry.exact n .fwd0 (fun j => cval R53.val (v j)) t‖ ≤ 1 / 10 ^ 7) ∧
    (∃ out : ℕ → Xmm R53, Computes (bluesteinFFT (Xmm R53) thr) n [(.fwdu, Ptr.base 1), (.invu, Ptr.base 1)] (oneArray n v) (Ptr.base 1) n out ∧
      ∀ t < n, ‖cval R53.val (out t) - cval R53.val (v t)‖ ≤ 1 / 10 ^ 6) := by
  have hn' : (n:ℝ) ≤ 100 := by exact_mod_cast hn
  have h1' : (1:ℝ) ≤ n := by exact_mod_cast h1
  have hc : (Nat.clog 2 n : ℝ) ≤ 7 := by
    have : Nat.clog 2 n ≤ 7 := by
      have := Nat.clog_mono_right 2 (by omega : n ≤ 2 ^ 7)
      rwa [Nat.clog_pow 2 7 (by norm_num)] at this
    exact_mod_cast this
  have hn2 : (n:ℝ) * n ≤ 100 * 100 := by gcongr
  have hn3 : (n:ℝ) * (n * n) ≤ 100 * (100 * 100) := by gcongr
  have hn4 : (n:ℝ) * (n * (n * n)) ≤ 100 * (100 * (100 * 100)) := by gcongr
  have hm : (1:ℝ) / 2 ^ 970 ≤ 1 := div_le_one_of_le₀ (one_le_pow₀ (by norm_num)) (by positivity)
  have ok := oneArray_ok n v
  constructor
  · obtain ⟨out, h, hb⟩ := @C48_bluestein R53 _ _ _ _ n 1 _ (Ptr.base 1) v rounded_laws ⟨true, true, true, false, true⟩ thr h1 (by omega) ok hm
      (le_trans (b := 2 ^ 60) (by rw [mul_one]; exact le_trans hn3 (by norm_num)) (pow_le_pow_right₀ (by norm_num) (by norm_num)))
      (fun t ht => ⟨⟨trivial, trivial⟩, hv t ht⟩) .fwd0
    refine ⟨out, h, fun t ht => le_trans (hb t ht).2 ?_⟩
    have hf : Entry.factor n .fwd0 = 1 := rfl
    rw [hf]
    calc _ ≤ ((150 * 7 + 207) / 2 ^ 52 * (16 * (100 * (100 * (1 * 1)))) : ℝ) := by gcongr
      _ ≤ _ := by norm_num
  · obtain ⟨out, h, hb⟩ := @C48_roundtrip R53 _ _ _ _ n 1 _ (Ptr.base 1) v rounded_laws ⟨true, true, true, false, true⟩ thr h1 (by omega) ok hm
      (le_trans (b := 2 ^ 60) (by rw [mul_one]; exact le_trans hn4 (by norm_num)) (pow_le_pow_right₀ (by norm_num) (by norm_num)))
      (fun t ht => ⟨⟨trivial, trivial⟩, hv t ht⟩) .fwdu .invu (by simp)
    refine ⟨out, h, fun t ht => le_trans (hb t ht).2 ?_⟩
    calc _ ≤ ((150 * 7 + 207) / 2 ^ 52 * (48 * (100 * (100 * 1))) : ℝ) := by gcongr
      _ ≤ _ := by norm_num

end OTFFT.Props
