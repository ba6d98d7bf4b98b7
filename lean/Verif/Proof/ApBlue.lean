/-
Error analysis of Bluestein's algorithm.
-/
import Verif.Proof.RoundReal
import Verif.Proof.BlueDFT

namespace OTFFT

/-- what the error analysis of Bluestein's algorithm uses besides `ApLaws` -/
structure ApBlue {F C : Type} [DArith F] [CArith F C] (Ap : ℂ → C → ℝ → ℕ → Prop) (m0 G : ℝ) : Prop extends ApLaws Ap m0 G where
  zeroM : ∀ {M}, m0 ≤ M → Ap (ofD ℂ (fofNat 0)) (ofD C (fofNat 0)) M 0
  one : Ap (ofD ℂ (fofNat 1)) (ofD C (fofNat 1)) 1 0
  mone : Ap (ofD ℂ (fneg (fofNat 1))) (ofD C (fneg (fofNat 1))) 1 0
  chirp : ∀ {N p : ℕ}, 1 ≤ N → N ≤ 2 ^ 31 → p ≤ N →
    Ap (CArith.cmk (fcos (fmul (fofNat p) (fdiv fpi (fofNat N))) : ℝ) (fneg (fsin (fmul (fofNat p) (fdiv fpi (fofNat N))))))
      (CArith.cmk (fcos (fmul (fofNat p) (fdiv fpi (fofNat N))) : F) (fneg (fsin (fmul (fofNat p) (fdiv fpi (fofNat N))))) : C) 1 13
  chirp' : ∀ {N p : ℕ}, 1 ≤ N → N ≤ 2 ^ 31 → p ≤ N →
    Ap (CArith.cmk (fcos (fmul (fofNat p) (fdiv fpi (fofNat N))) : ℝ) (fneg (fneg (fsin (fmul (fofNat p) (fdiv fpi (fofNat N)))))))
      (CArith.cmk (fcos (fmul (fofNat p) (fdiv fpi (fofNat N))) : F) (fneg (fneg (fsin (fmul (fofNat p) (fdiv fpi (fofNat N)))))) : C) 1 13
  cmul_tw : ∀ {a a' b b' M k1 k2}, Ap a a' M k1 → Ap b b' 1 k2 → Ap (CArith.cmul a b) (CArith.cmul a' b') M (k1 + k2 + 4)

namespace ApBlue
variable {F C : Type} [DArith F] [CArith F C] {Ap : ℂ → C → ℝ → ℕ → Prop} {m0 G : ℝ}
variable {M : ℝ} {k n : ℕ} {thr : Thr} {mode : ScaleMode} {inv : Bool} {v : ℕ → ℂ} {v' : ℕ → C}

theorem bsc_ap (L : ApBlue Ap m0 G) {a a' N} (h1 : 1 ≤ N) (h31 : N ≤ 2 ^ 31) (h : Ap a a' M k) (hM : M ≤ G)
    (hm : m0 ≤ scR N mode * M) : Ap (bsc mode N a) (bsc mode N a') (scR N mode * M) (k + 6) := by
  have := L.mixScale N mode h1 h31 h hM hm
  cases mode <;> exact this

theorem tab_ap (L : ApBlue Ap m0 G) {N t : ℕ} (h1 : 1 ≤ N) (h31 : N ≤ 2 ^ 31) (ht : t < 2 * N + 1) :
    Ap (blueTab ℂ N t) (blueTab C N t) 1 13 := by
  unfold blueTab
  split
  · exact L.mono L.one le_rfl (by omega)
  split
  · exact L.mono L.mone le_rfl (by omega)
  split
  · exact L.chirp h1 h31 (by omega)
  · exact L.chirp' h1 h31 (by omega)

theorem X_ap (L : ApBlue Ap m0 G) {N : ℕ} (h1 : 1 ≤ N) (h31 : N ≤ 2 ^ 31) (p : ℕ) :
    Ap (blueX ℂ N inv (blueTab ℂ N) p) (blueX C N inv (blueTab C N) p) 1 13 := by
  unfold blueX
  split
  · exact L.mono L.one le_rfl (by omega)
  · exact L.tab_ap h1 h31 (blueI2_lt h1 inv p)

theorem A_ap (L : ApBlue Ap m0 G) (h1 : 1 ≤ n) (h31 : n ≤ 2 ^ 31) (hv : ∀ t < n, Ap (v t) (v' t) M k) (p : ℕ) :
    Ap (blueA ℂ n inv (blueTab ℂ n) v p) (blueA C n inv (blueTab C n) v' p) M (k + 17) := by
  unfold blueA
  split
  · exact L.mono (hv 0 (by omega)) le_rfl (by omega)
  split
  · rename_i h
    exact L.mono (L.cmul_tw (hv p h) (L.tab_ap h1 h31 (blueI1_lt h1 inv p))) le_rfl (by omega)
  · exact L.mono (L.zeroM (L.pos (hv 0 (by omega)))) le_rfl (by omega)

theorem B_ap (L : ApBlue Ap m0 G) {N : ℕ} (h1 : 1 ≤ N) (h31 : N ≤ 2 ^ 31) (l p : ℕ) :
    Ap (blueB ℂ N l inv (blueTab ℂ N) p) (blueB C N l inv (blueTab C N) p) 1 13 := by
  unfold blueB
  split
  · exact L.X_ap h1 h31 p
  split
  · exact L.X_ap h1 h31 _
  · exact L.mono (L.zeroM (le_trans L.m0_le (by norm_num))) le_rfl (by omega)

/-- the padded length -/
theorem pad_facts (h2 : 2 ≤ n) (h29 : n ≤ 2 ^ 29) : ∃ j, bluePad n = 2 ^ j ∧ 2 ≤ bluePad n ∧ bluePad n ≤ 4 * n ∧
    bluePad n ≤ 2 ^ 31 ∧ j ≤ Nat.clog 2 n + 1 ∧ n ≤ bluePad n := by
  obtain ⟨l, hl⟩ := blueLoop_some h29
  have hlt := blueLoop_lt _ _ _ hl (by norm_num)
  have hp : bluePad n = l := by rw [bluePad, hl]; rfl
  obtain ⟨j, -, rfl, hL, hmin⟩ := blueLoop_spec _ _ _ hl
  rw [hp]
  have hj : j ≤ Nat.clog 2 n + 1 := by
    by_contra h
    have := hmin (Nat.clog 2 n + 1) (Nat.zero_le _) (by omega)
    have h3 := Nat.le_pow_clog (b := 2) (by norm_num) n
    rw [pow_succ] at this
    omega
  refine ⟨j, rfl, by omega, ?_, hlt.le, hj, by omega⟩
  rcases Nat.eq_zero_or_pos j with rfl | h0
  · simp; omega
  · have := hmin (j - 1) (Nat.zero_le _) (by omega)
    have e : 2 ^ j = 2 * 2 ^ (j - 1) := by rw [← pow_succ']; congr 1; omega
    omega

theorem blue_ap (L : ApBlue Ap m0 G) (h1 : 1 ≤ n) (h29 : n ≤ 2 ^ 29) (hG : 64 * (n * (n * (n * M))) ≤ G)
    (hm : m0 ≤ scR n mode * M) (hv : ∀ t < n, Ap (v t) (v' t) M k) (e : Entry) (he : e.mode = mode) :
    ∀ t < n, Ap (blueOutF ℂ thr e n v t) (blueOutF C thr e n v' t) (16 * (n * (n * (scR n mode * M)))) (k + (150 * Nat.clog 2 n + 207)) := by
  subst he
  intro t ht
  have hn1 : (1:ℝ) ≤ n := by exact_mod_cast h1
  have hs := ApLaws.scR_range n e.mode h1 (by omega)
  have hs0 : 0 ≤ scR n e.mode := le_trans (by positivity) hs.1
  have hM0 : 0 ≤ M := L.nonneg (hv 0 (by omega))
  have hsM : 0 ≤ scR n e.mode * M := by positivity
  have hnn : (1:ℝ) ≤ n * n := by nlinarith
  unfold blueOutF blueRes
  split
  · obtain rfl : n = 1 := by omega
    have : scR 1 e.mode = 1 := by cases e <;> simp [scR, Entry.mode]
    rw [this]
    exact L.mono (hv t ht) (by push_cast; linarith) (by omega)
  · rename_i hn2
    obtain ⟨j, hj, hl2, hl4, hl31, hjc, hnl⟩ := pad_facts (n := n) (by omega) h29
    generalize bluePad n = l at *
    have hw : errWeight l = 50 * j := by rw [hj]; exact errWeight_two_pow j
    have hlr : (2:ℝ) ≤ l := by exact_mod_cast hl2
    have hlr4 : (l:ℝ) ≤ 4 * n := by exact_mod_cast hl4
    have hlr31 : (l:ℝ) ≤ 2 ^ 31 := by exact_mod_cast hl31
    have hll : (l:ℝ) * l ≤ 16 * (n * n) := by nlinarith
    have hlll : (l:ℝ) * (l * l) ≤ 64 * (n * (n * n)) := by
      have : (l:ℝ) * (l * l) ≤ 4 * n * (16 * (n * n)) := mul_le_mul hlr4 hll (by positivity) (by positivity)
      linarith
    have hG3 : (l:ℝ) * (l * M * l) ≤ G := by
      refine le_trans ?_ hG
      have := mul_le_mul_of_nonneg_right hlll hM0
      calc (l:ℝ) * (l * M * l) = l * (l * l) * M := by ring
        _ ≤ 64 * (n * (n * n)) * M := this
        _ = _ := by ring
    have hl1 : (1:ℝ) ≤ l * l := by nlinarith
    have hG2 : (l:ℝ) * M * l ≤ G := le_trans (by nlinarith [mul_nonneg (mul_nonneg (by linarith : (0:ℝ) ≤ l) hM0) (by linarith : (0:ℝ) ≤ l)]) hG3
    have hG1 : (l:ℝ) * M ≤ G := le_trans (by nlinarith [mul_nonneg (by linarith : (0:ℝ) ≤ l) hM0]) hG2
    have hGl : (l:ℝ) ≤ G := le_trans hlr31 (le_trans (by norm_num) L.G_ge)
    have hmM : m0 ≤ M := L.pos (hv 0 (by omega))
    have hA := L.fftOut_ap (thr := thr) (inv := false) (mode := .scale_1) hl2 hl31 hG1 (by
      show m0 ≤ 1 * M; linarith) (fun t _ => L.A_ap (inv := e.isInv) h1 (by omega) hv t)
    have hB := L.fftOut_ap (thr := thr) (inv := false) (mode := .scale_1) hl2 hl31 (by rw [mul_one]; exact hGl) (by
      show m0 ≤ 1 * 1; have := L.m0_le; norm_num at this ⊢; linarith) (fun t _ => L.B_ap (inv := e.isInv) (N := n) h1 (by omega) l t)
    have hP := fun t ht => L.mul (hA t ht) (hB t ht) (by
        rw [show scR l .scale_1 = 1 from rfl, one_mul]; exact hG1) (by
        rw [show scR l .scale_1 = 1 from rfl, one_mul, mul_one]; exact hGl) (by
        rw [show scR l .scale_1 = 1 from rfl]
        have : M ≤ l * (1 * M) * (l * (1 * 1)) := by nlinarith [mul_nonneg hM0 (by linarith : (0:ℝ) ≤ l * l - 1)]
        linarith)
    rw [show scR l .scale_1 = 1 from rfl] at hP
    have eP : (l:ℝ) * (1 * M) * (l * (1 * 1)) = l * M * l := by ring
    rw [eP] at hP
    have hsl : scR l .scale_length = 1 / (l:ℝ) := rfl
    have hl0 : (l:ℝ) ≠ 0 := by linarith
    have eI : 1 / (l:ℝ) * (l * M * l) = l * M := by field_simp
    have hI := L.fftOut_ap (thr := thr) (inv := true) (mode := .scale_length) hl2 hl31 hG3 (by
      rw [hsl, eI]; nlinarith) hP t (by omega)
    rw [hsl, eI] at hI
    have hX := L.mul_tw hI (L.cnj (L.X_ap (inv := e.isInv) (N := n) h1 (by omega) t))
    have hX' := L.mono hX (M' := 16 * (n * (n * M))) (by
      have := mul_le_mul_of_nonneg_right hll hM0
      calc (l:ℝ) * (l * M) = l * l * M := by ring
        _ ≤ 16 * (n * n) * M := this
        _ = _ := by ring) (le_refl _)
    have hG' : 16 * ((n:ℝ) * (n * M)) ≤ G := by
      refine le_trans ?_ hG
      have : 0 ≤ (n:ℝ) * (n * M) := by positivity
      nlinarith
    have hbig : scR n e.mode * M ≤ scR n e.mode * (16 * (n * (n * M))) := by
      have : M ≤ 16 * (n * (n * M)) := by nlinarith [mul_nonneg hM0 (by linarith : (0:ℝ) ≤ (n:ℝ) * n - 1)]
      exact mul_le_mul_of_nonneg_left this hs0
    refine L.mono (L.bsc_ap h1 (by omega) hX' hG' (le_trans hm hbig)) (le_of_eq (by ring)) ?_
    omega

end ApBlue

namespace Flt
variable {F : Type} [FArith F] {c : Flt F}

theorem chirp_rp {N p : ℕ} (h1 : 1 ≤ N) (h31 : N ≤ 2 ^ 31) (hp : p ≤ N) :
    c.Rp (p * (Real.pi / (N : ℕ))) (fmul (fofNat p) (fdiv fpi (fofNat N))) Real.pi (303 / 100) := by
  have hpi := pi_range
  obtain ⟨hN, hm, hG⟩ := frac (N := N) h1 h31
  obtain ⟨fN, eN⟩ := nat_ok (c := c) h31
  obtain ⟨fp, ep⟩ := nat_ok (c := c) (n := p) (by omega)
  have hN1 : (1:ℝ) ≤ N := by exact_mod_cast h1
  have e : Real.pi / (N : ℕ) * N = Real.pi := by field_simp
  have hN31 : ((N : ℕ) : ℝ) ≤ 2 ^ 31 := by exact_mod_cast h31
  have b : 1 / 2 ^ 31 ≤ Real.pi / (N : ℕ) := by
    rw [div_le_div_iff₀ (by positivity) hN]; nlinarith
  have b' : Real.pi / (N : ℕ) ≤ 2 ^ 31 := by
    rw [div_le_iff₀ hN]; push_cast; norm_num; nlinarith
  have t := (Rp.pi (c := c)).div_exact fN eN hN (by norm_num) (by norm_num) (m0_small b) (G_big b')
  have a2 := (t.mul_exact fp ep (Y := N) (by rw [abs_of_nonneg (by positivity)]; exact_mod_cast hp) (by norm_num) (by norm_num)
    (by rw [e]; exact m0_small (by norm_num; linarith)) (by rw [e]; exact G_big (by norm_num; linarith))).2
  rw [e] at a2
  exact a2.mono (by norm_num) le_rfl (by norm_num)

/-- the laws of Bluestein's algorithm hold for the library compiled for any instruction set -/
theorem apBlue (c : Flt F) (i : Target) : letI := i.arith F
    ApBlue (C := Xmm F) c.Ap c.m0 c.G := by
  letI := i.arith F
  have hpi := pi_range
  have R := c.apReal i
  have hone : c.Ap (ofD ℂ (fofNat 1)) (ofD (Xmm F) (fofNat 1)) 1 0 := by
    have := R.nat (n := 1) le_rfl (by norm_num)
    rwa [Nat.cast_one] at this
  exact {
    c.apLaws i with
    zeroM := fun {M} hM => by
      rw [ofD_C]
      have h0 : 0 ≤ M := le_trans c.m0_pos.le hM
      refine Ap.real_iff.2 ⟨hM, fun _ _ => ⟨zero_ok.1, ?_, ?_⟩⟩
      · show |((0:ℕ):ℝ)| ≤ M
        simpa using h0
      · show |c.val (fofNat 0) - ((0:ℕ):ℝ)| ≤ _
        rw [zero_ok.2]; simp
    one := hone
    mone := R.dneg hone
    chirp := fun {N p} h1 h31 hp => by
      have h := Ap.cis_neg (k := 13) (chirp_rp (c := c) h1 h31 hp) (by linarith) (by norm_num) (by norm_num) (by push_cast; linarith)
      rw [show (-((p * (Real.pi / (N : ℕ)) : ℝ) : ℂ)) = ((-(p * (Real.pi / (N : ℕ))) : ℝ) : ℂ) by push_cast; ring, exp_I_mk,
        Real.cos_neg, Real.sin_neg] at h
      exact h
    chirp' := fun {N p} h1 h31 hp => by
      have h := Ap.cis_neg (k := 13) (chirp_rp (c := c) h1 h31 hp) (by linarith) (by norm_num) (by norm_num) (by push_cast; linarith)
      rw [show (-((p * (Real.pi / (N : ℕ)) : ℝ) : ℂ)) = ((-(p * (Real.pi / (N : ℕ))) : ℝ) : ℂ) by push_cast; ring, exp_I_mk,
        Real.cos_neg, Real.sin_neg] at h
      exact h.conj_comp
    cmul_tw := fun ha hb => Ap.mul_tw mulOK_cpx ha hb }

end Flt
end OTFFT
