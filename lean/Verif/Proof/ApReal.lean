/-
Error analysis of the real transforms, independent of how the arithmetic is implemented.
-/
import Verif.Proof.ApMixed
import Verif.Proof.DCTDFT

namespace OTFFT

/-- factor applied before the half-length inverse transform -/
noncomputable def scI (N : ℕ) (mode : ScaleMode) : ℝ :=
  match mode with
  | .scale_1 => 2
  | .scale_unitary => 2 / Real.sqrt N
  | .scale_length => 1

/-- what the error analysis of the real transforms uses besides `ApLaws`. A double `x'` is a computed value of `x` if the
complex numbers with these real parts are. -/
structure ApReal {F C : Type} [DArith F] [CArith F C] (Ap : ℂ → C → ℝ → ℕ → Prop) (m0 G : ℝ) : Prop extends ApLaws Ap m0 G where
  bound : ∀ {a a' M M' k}, Ap a a' M k → M ≤ 3 / 2 * M' → m0 ≤ M' → M ≤ G → ‖a‖ ≤ M' → Ap a a' M' (2 * k)
  re : ∀ {a a' M k}, Ap a a' M k → Ap (ofD ℂ (CArith.re a)) (ofD C (CArith.re a')) M k
  im : ∀ {a a' M k}, Ap a a' M k → Ap (ofD ℂ (CArith.im a)) (ofD C (CArith.im a')) M k
  cmk : ∀ {x y : ℝ} {x' y' : F} {M k}, Ap (ofD ℂ x) (ofD C x') M k → Ap (ofD ℂ y) (ofD C y') M k →
    Ap (CArith.cmk x y) (CArith.cmk x' y') (3 / 2 * M) k
  dneg : ∀ {x : ℝ} {x' : F} {M k}, Ap (ofD ℂ x) (ofD C x') M k → Ap (ofD ℂ (fneg x)) (ofD C (fneg x')) M k
  dadd : ∀ {x y : ℝ} {x' y' : F} {M1 M2 k1 k2}, Ap (ofD ℂ x) (ofD C x') M1 k1 → Ap (ofD ℂ y) (ofD C y') M2 k2 →
    Ap (ofD ℂ (fadd x y)) (ofD C (fadd x' y')) (M1 + M2) (max k1 k2 + 1)
  dsub : ∀ {x y : ℝ} {x' y' : F} {M1 M2 k1 k2}, Ap (ofD ℂ x) (ofD C x') M1 k1 → Ap (ofD ℂ y) (ofD C y') M2 k2 →
    Ap (ofD ℂ (fsub x y)) (ofD C (fsub x' y')) (M1 + M2) (max k1 k2 + 1)
  nat : ∀ {n : ℕ}, 1 ≤ n → n ≤ 2 ^ 31 → Ap (ofD ℂ (fofNat n)) (ofD C (fofNat n)) n 0
  zero : Ap (ofD ℂ (fofNat 0)) (ofD C (fofNat 0)) 1 0
  div2 : ∀ {x : ℝ} {x' : F} {M k}, Ap (ofD ℂ x) (ofD C x') M k → m0 ≤ M / 2 → M ≤ G →
    Ap (ofD ℂ (fdiv x (fofNat 2))) (ofD C (fdiv x' (fofNat 2))) (M / 2) (k + 6)
  rsc0 : ∀ {x : ℝ} {x' : F} {M k} (N : ℕ) (mode : ScaleMode), 1 ≤ N → N ≤ 2 ^ 31 → Ap (ofD ℂ x) (ofD C x') M k → M ≤ G →
    m0 ≤ scR N mode * M → Ap (ofD ℂ (rsc0 ℝ mode N x)) (ofD C (rsc0 F mode N x')) (scR N mode * M) (k + 6)
  rscFwd : ∀ {a a' M k} (N : ℕ) (mode : ScaleMode), 1 ≤ N → N ≤ 2 ^ 31 → Ap a a' M k → M ≤ G → m0 ≤ scR N mode * M →
    Ap (rsc mode N a) (rsc mode N a') (scR N mode * M) (k + 6)
  rscInv : ∀ {a a' M k} (N : ℕ) (mode : ScaleMode), 1 ≤ N → N ≤ 2 ^ 31 → Ap a a' M k → M ≤ G → m0 ≤ scI N mode * M →
    Ap (rscInv mode N a) (rscInv mode N a') (scI N mode * M) (k + 6)
  cmul : ∀ {a a' b b' M k1 k2}, Ap a a' 1 k1 → Ap b b' M k2 → Ap (CArith.cmul a b) (CArith.cmul a' b') M (k1 + k2 + 4)
  dotRe : ∀ {a a' b b' M k1 k2}, Ap a a' 1 k1 → Ap b b' M k2 → ∀ c c',
    Ap (ofD ℂ (CArith.re (haddpz (CArith.mulpd a b) c))) (ofD C (CArith.re (haddpz (CArith.mulpd a' b') c'))) M (k1 + k2 + 4)
  dotIm : ∀ {a a' b b' M k1 k2}, Ap a a' 1 k1 → Ap b b' M k2 → ∀ c c',
    Ap (ofD ℂ (CArith.im (haddpz c (CArith.mulpd a b)))) (ofD C (CArith.im (haddpz c' (CArith.mulpd a' b')))) M (k1 + k2 + 4)
  rcos : ∀ {N p : ℕ}, 1 ≤ N → N ≤ 2 ^ 31 → p ≤ N →
    Ap (ofD ℂ (fcos (fmul (fofNat p) (fdiv (fmul (fofNat 2) fpi) (fofNat N)) : ℝ)))
      (ofD C (fcos (fmul (fofNat p) (fdiv (fmul (fofNat 2) fpi) (fofNat N)) : F))) 1 29
  rsin : ∀ {N p : ℕ}, 1 ≤ N → N ≤ 2 ^ 31 → p ≤ N →
    Ap (ofD ℂ (fsin (fmul (fofNat p) (fdiv (fmul (fofNat 2) fpi) (fofNat N)) : ℝ)))
      (ofD C (fsin (fmul (fofNat p) (fdiv (fmul (fofNat 2) fpi) (fofNat N)) : F))) 1 29
  dcos : ∀ {N p : ℕ}, 1 ≤ N → 2 * N ≤ 2 ^ 31 → p ≤ N →
    Ap (CArith.cmk (fcos (fmul (fofNat p) (fdiv fpi (fofNat (2 * N)))) : ℝ) (fsin (fmul (fofNat p) (fdiv fpi (fofNat (2 * N))))))
      (CArith.cmk (fcos (fmul (fofNat p) (fdiv fpi (fofNat (2 * N)))) : F) (fsin (fmul (fofNat p) (fdiv fpi (fofNat (2 * N))))) : C) 1 29
  dsin : ∀ {N p : ℕ}, 1 ≤ N → 2 * N ≤ 2 ^ 31 → p ≤ N →
    Ap (CArith.cmk (fsin (fmul (fofNat p) (fdiv fpi (fofNat (2 * N)))) : ℝ) (fcos (fmul (fofNat p) (fdiv fpi (fofNat (2 * N))))))
      (CArith.cmk (fsin (fmul (fofNat p) (fdiv fpi (fofNat (2 * N)))) : F) (fcos (fmul (fofNat p) (fdiv fpi (fofNat (2 * N))))) : C) 1 29

/-- two tables filled with related values hold related values -/
theorem tabOf_rel {C D : Type} {R : C → D → Prop} {d : C} {d' : D} {m : ℕ} {it : ℕ → List (ℕ × C)} {it' : ℕ → List (ℕ × D)}
    {t : ℕ} (hit : ∀ i < m, List.Forall₂ (fun a b => a.1 = b.1 ∧ R a.2 b.2) (it i) (it' i))
    (hc : ∃ i < m, ∃ tv ∈ it i, tv.1 = t) : R (tabOf d m it t) (tabOf d' m it' t) := by
  have last : ∀ {l : List (ℕ × C)} {l' : List (ℕ × D)}, List.Forall₂ (fun a b => a.1 = b.1 ∧ R a.2 b.2) l l' →
      (lastIdx l t = none ∧ lastIdx l' t = none) ∨ ∃ x y, lastIdx l t = some x ∧ lastIdx l' t = some y ∧ R x y := by
    intro l l' h
    induction h with
    | nil => exact Or.inl ⟨rfl, rfl⟩
    | @cons a b l l' h _ ih =>
      unfold lastIdx
      rcases ih with ⟨h1, h2⟩ | ⟨x, y, h1, h2, hr⟩
      · rw [h1, h2]
        simp only
        rw [h.1]
        split
        · exact Or.inr ⟨_, _, rfl, rfl, h.2⟩
        · exact Or.inl ⟨rfl, rfl⟩
      · rw [h1, h2]; exact Or.inr ⟨_, _, rfl, rfl, hr⟩
  have hf : ∀ l : List ℕ, (∀ i ∈ l, i < m) → (∃ i ∈ l, ∃ tv ∈ it i, tv.1 = t) →
      ∃ x y, l.findSome? (fun i => lastIdx (it i) t) = some x ∧ l.findSome? (fun i => lastIdx (it' i) t) = some y ∧ R x y := by
    intro l
    induction l with
    | nil => rintro - ⟨i, hi, -⟩; cases hi
    | cons j l ih =>
      intro hl hx
      rw [List.findSome?_cons, List.findSome?_cons]
      rcases last (hit j (hl j (.head _))) with ⟨h1, h2⟩ | ⟨x, y, h1, h2, hr⟩
      · rw [h1, h2]
        refine ih (fun i hi => hl i (.tail _ hi)) ?_
        obtain ⟨i, hi, hx⟩ := hx
        rcases List.mem_cons.1 hi with rfl | hi
        · obtain ⟨tv, _, _, h⟩ := lastIdx_some (it i) t hx
          rw [h] at h1; cases h1
        · exact ⟨i, hi, hx⟩
      · rw [h1, h2]; exact ⟨_, _, rfl, rfl, hr⟩
  obtain ⟨i, hi, hx⟩ := hc
  obtain ⟨x, y, h1, h2, hr⟩ := hf (List.range m) (fun i h => List.mem_range.1 h) ⟨i, List.mem_range.2 hi, hx⟩
  unfold tabOf
  rw [h1, h2]
  exact hr

theorem om_norm (inv : Bool) (N : ℕ) : ‖om inv N‖ = 1 := by
  have h := om_pow_conj inv N 1
  rw [pow_one, Complex.mul_conj, Complex.normSq_eq_norm_sq] at h
  have h : ‖om inv N‖ ^ 2 = 1 := by exact_mod_cast h
  have := norm_nonneg (om inv N)
  nlinarith

theorem rfftW_norm (N t : ℕ) : ‖rfftW N t‖ ≤ 1 := by
  unfold rfftW
  rw [norm_div, Complex.norm_ofNat, div_le_one (by norm_num)]
  refine le_trans (norm_add_le _ _) ?_
  rw [norm_one, norm_mul, Complex.norm_I, one_mul, norm_pow, om_norm, one_pow]
  norm_num

namespace ApReal
variable {F C : Type} [DArith F] [CArith F C] {Ap : ℂ → C → ℝ → ℕ → Prop} {m0 G : ℝ}

theorem half_ap (L : ApReal Ap m0 G) {x y : ℝ} {x' y' : F} (hx : Ap (ofD ℂ x) (ofD C x') 2 30) (hy : Ap (ofD ℂ y) (ofD C y') 2 30) :
    Ap (half ℂ x y) (half C x' y') (3 / 2) 36 := by
  have h1 := L.m0_le
  have h2 := L.G_ge
  have := L.cmk (L.div2 hx (by norm_num at h1 ⊢; linarith) (by norm_num at h2 ⊢; linarith))
    (L.div2 hy (by norm_num at h1 ⊢; linarith) (by norm_num at h2 ⊢; linarith))
  rw [show (3:ℝ) / 2 * (2 / 2) = 3 / 2 by norm_num] at this
  exact this

theorem rfftTab_ap (L : ApReal Ap m0 G) {N t : ℕ} (h1 : 1 ≤ N) (h31 : N ≤ 2 ^ 31) (ht : t ≤ N) :
    Ap (rfftTab ℂ N t) (rfftTab C N t) 1 72 := by
  obtain ⟨-, -, f3⟩ := rfftIts_facts (C := ℂ) h1
  have key : Ap (rfftTab ℂ N t) (rfftTab C N t) (3 / 2) 36 := by
    refine tabOf_rel (R := fun a b => Ap a b (3 / 2) 36) (fun p hp => ?_) (f3 t (by omega))
    have hpN : p ≤ N := by
      unfold rfftCnt at hp
      split at hp
      · omega
      · split at hp <;> omega
    have hc := L.rcos (p := p) h1 h31 hpN
    have hs := L.dneg (L.rsin (p := p) h1 h31 hpN)
    have one := L.nat (n := 1) le_rfl (by norm_num)
    have two := L.nat (n := 2) (by norm_num) (by norm_num)
    rw [Nat.cast_one] at one
    rw [Nat.cast_ofNat] at two
    have up : ∀ {x : ℝ} {x' : F} {k}, k ≤ 30 → Ap (ofD ℂ x) (ofD C x') 1 k → Ap (ofD ℂ x) (ofD C x') 2 30 :=
      fun hk h => L.mono h (by norm_num) hk
    have up2 : ∀ {x : ℝ} {x' : F} {k}, k ≤ 30 → Ap (ofD ℂ x) (ofD C x') (1 + 1) k → Ap (ofD ℂ x) (ofD C x') 2 30 :=
      fun hk h => L.mono h (by norm_num) hk
    have c2 := up (by omega) hc
    have s2 := up (by omega) hs
    have nc := up (by omega) (L.dneg hc)
    have ns := up (by omega) (L.dneg hs)
    have o2 := up (by omega) one
    have no := up (by omega) (L.dneg one)
    have z2 := up (by omega) L.zero
    have t2 := L.mono two (M' := 2) (k' := 30) le_rfl (by omega)
    have pc := up2 (by omega) (L.dadd one hc)
    have mc := up2 (by omega) (L.dsub one hc)
    have ps := up2 (by omega) (L.dadd one hs)
    have ms := up2 (by omega) (L.dsub one hs)
    unfold rfftIts
    simp only
    split
    · exact .cons ⟨rfl, L.half_ap ms c2⟩ (.cons ⟨rfl, L.half_ap ps c2⟩ .nil)
    split
    · exact .cons ⟨rfl, L.half_ap o2 o2⟩ (.cons ⟨rfl, L.half_ap o2 o2⟩ .nil)
    split
    · exact .cons ⟨rfl, L.half_ap o2 o2⟩ (.cons ⟨rfl, L.half_ap o2 o2⟩ (.cons ⟨rfl, L.half_ap o2 no⟩ .nil))
    split
    · exact .cons ⟨rfl, L.half_ap o2 o2⟩ (.cons ⟨rfl, L.half_ap t2 z2⟩ (.cons ⟨rfl, L.half_ap o2 no⟩
        (.cons ⟨rfl, L.half_ap z2 z2⟩ (.cons ⟨rfl, L.half_ap o2 o2⟩ .nil))))
    exact .cons ⟨rfl, L.half_ap ms c2⟩ (.cons ⟨rfl, L.half_ap pc ns⟩ (.cons ⟨rfl, L.half_ap pc s2⟩ (.cons ⟨rfl, L.half_ap ms nc⟩
      (.cons ⟨rfl, L.half_ap ps nc⟩ (.cons ⟨rfl, L.half_ap mc s2⟩ (.cons ⟨rfl, L.half_ap mc ns⟩ (.cons ⟨rfl, L.half_ap ps c2⟩ .nil)))))))
  have h1' := L.m0_le
  have h2' := L.G_ge
  refine L.bound key (by norm_num) (by norm_num at h1' ⊢; linarith) (by norm_num at h2' ⊢; linarith) ?_
  rw [rfftTab_C h1 (by omega)]
  exact rfftW_norm N t

theorem dctTab_ap (L : ApReal Ap m0 G) {N t : ℕ} (h1 : 1 ≤ N) (h31 : 2 * N ≤ 2 ^ 31) (ht : t ≤ N) :
    Ap (dctTab ℂ N t) (dctTab C N t) 1 29 := by
  obtain ⟨-, -, f3⟩ := dctIts_facts (C := ℂ) N
  refine tabOf_rel (R := fun a b => Ap a b 1 29) (fun p hp => ?_) (f3 t (by omega))
  exact .cons ⟨rfl, L.dcos h1 h31 (by omega)⟩ (.cons ⟨rfl, L.dsin h1 h31 (by omega)⟩ .nil)

/-! ### the real transforms -/

variable {M : ℝ} {k m : ℕ} {thr : Thr} {mode : ScaleMode} {v : ℕ → ℂ} {v' : ℕ → C}

theorem rsc_ap (L : ApReal Ap m0 G) {a a' N} (h1 : 1 ≤ N) (h31 : N ≤ 2 ^ 31) (h : Ap a a' M k) (hM : M ≤ G)
    (hm : m0 ≤ scR N mode * M) : Ap (rsc mode N a) (rsc mode N a') (scR N mode * M) (k + 6) :=
  L.rscFwd N mode h1 h31 h hM hm

theorem rfftFwd_ap (L : ApReal Ap m0 G) (hm2 : 2 ≤ m) (h31 : 2 * m ≤ 2 ^ 31) (hG : 9 / 4 * ((2 * m : ℕ) * M) ≤ G)
    (hm : m0 ≤ scR (2 * m) mode * M) (hv : ∀ t < 2 * m, Ap (v t) (v' t) M k) :
    ∀ t < 2 * m, Ap (rfftFwdOut ℂ thr mode m v t) (rfftFwdOut C thr mode m v' t) (9 / 4 * ((2 * m : ℕ) * (scR (2 * m) mode * M)))
      (k + errWeight m + 84) := by
  have hM0 : 0 ≤ M := L.nonneg (hv 0 (by omega))
  have hmm := L.pos (hv 0 (by omega))
  have hm1 : (1:ℝ) ≤ m := by exact_mod_cast (by omega : 1 ≤ m)
  have hs := ApLaws.scR_range (2 * m) mode (by omega) h31
  have hs0 : 0 ≤ scR (2 * m) mode := le_trans (by positivity) hs.1
  push_cast at hG
  have hmM : 0 ≤ m * M := by positivity
  have hz : ∀ p < m, Ap (rfftZin ℂ v p) (rfftZin C v' p) (3 / 2 * M) k := fun p hp =>
    L.cmk (L.re (hv _ (by omega))) (L.re (hv _ (by omega)))
  have hZ := L.fftOut_ap (thr := thr) (inv := false) (mode := .scale_1) hm2 (by omega) (by nlinarith) (by
    show m0 ≤ 1 * (3 / 2 * M); linarith) hz
  unfold rfftFwdOut
  set Z := fftOut ℂ thr false .scale_1 m (rfftZin ℂ v)
  set Z' := fftOut C thr false .scale_1 m (rfftZin C v')
  have eM : (m:ℝ) * (scR m .scale_1 * (3 / 2 * M)) = 3 / 2 * (m * M) := by
    rw [show scR m .scale_1 = 1 from rfl]; ring
  rw [eM] at hZ
  have hu := fun t (ht : t ≤ 2 * m) => L.rfftTab_ap (N := 2 * m) (t := t) (by omega) h31 ht
  have hsm : m0 ≤ scR (2 * m) mode * (3 * (m * M)) := le_trans hm (by
    have : M ≤ 3 * (m * M) := by nlinarith
    exact mul_le_mul_of_nonneg_left this hs0)
  have hsm' : m0 ≤ scR (2 * m) mode * (9 / 2 * (m * M)) := le_trans hm (by
    have : M ≤ 9 / 2 * (m * M) := by nlinarith
    exact mul_le_mul_of_nonneg_left this hs0)
  have eout : 9 / 4 * (((2 * m : ℕ) : ℝ) * (scR (2 * m) mode * M)) = scR (2 * m) mode * (9 / 2 * (m * M)) := by
    push_cast; ring
  rw [eout]
  have hmid : ∀ t, 1 ≤ t → t < m → Ap (rfftMid mode m (rfftTab ℂ (2 * m)) Z t) (rfftMid mode m (rfftTab C (2 * m)) Z' t)
      (scR (2 * m) mode * (9 / 2 * (m * M))) (k + errWeight m + 84) := by
    intro t h1 ht
    have d : ∀ a b, a < m → b < m → Ap (subpz (Z a) (cnjpz (Z b))) (subpz (Z' a) (cnjpz (Z' b))) (3 * (m * M)) (k + errWeight m + 1) :=
      fun a b ha hb => L.mono (L.sub (hZ a ha) (L.cnj (hZ b hb))) (by linarith) (by omega)
    unfold rfftMid
    split
    · refine L.rsc_ap (k := k + errWeight m + 78) (by omega) h31 (L.mono (L.sub (hZ t ht) (L.tw_mul (hu t (by omega))
        (d t (m - t) ht (by omega)))) (by linarith) (by omega)) (by linarith) hsm'
    · refine L.rsc_ap (k := k + errWeight m + 78) (by omega) h31 (L.cnj (L.mono (L.add (L.cnj (hZ t ht)) (L.tw_mul (hu (m - t) (by omega))
        (d (m - t) t (by omega) ht))) (by linarith) (by omega))) (by linarith) hsm'
  have z0 := hZ 0 (by omega)
  have wide : scR (2 * m) mode * (3 * (m * M)) ≤ scR (2 * m) mode * (9 / 2 * (m * M)) :=
    mul_le_mul_of_nonneg_left (by linarith) hs0
  intro t ht
  unfold rfftPostOut
  split
  · exact L.mono (L.rsc0 (2 * m) mode (by omega) h31 (L.mono (L.dadd (L.re z0) (L.im z0)) (M' := 3 * (m * M))
      (k' := k + errWeight m + 1) (by linarith) (by omega)) (by linarith) hsm) wide (by omega)
  split
  · exact hmid t (by omega) (by omega)
  split
  · exact L.mono (L.rsc0 (2 * m) mode (by omega) h31 (L.mono (L.dsub (L.re z0) (L.im z0)) (M' := 3 * (m * M))
      (k' := k + errWeight m + 1) (by linarith) (by omega)) (by linarith) hsm) wide (by omega)
  · exact L.cnj (hmid _ (by omega) (by omega))

theorem scI_eq (hm : 1 ≤ m) (mode : ScaleMode) (M : ℝ) :
    m * (scR m (rfftInvMode mode) * (scI (2 * m) mode * M)) = (2 * m : ℕ) * (scR (2 * m) mode * M) := by
  have : (m:ℝ) ≠ 0 := by exact_mod_cast (by omega : m ≠ 0)
  cases mode
  · show m * (1 * (2 * M)) = (2 * m : ℕ) * (1 * M); push_cast; ring
  · show m * (1 * (2 / √(2 * m : ℕ) * M)) = (2 * m : ℕ) * (1 / √(2 * m : ℕ) * M); push_cast; ring
  · show m * (1 / m * (1 * M)) = (2 * m : ℕ) * (1 / (2 * m : ℕ) * M); push_cast; field_simp

theorem rfftInv_ap (L : ApReal Ap m0 G) (hm2 : 2 ≤ m) (h31 : 2 * m ≤ 2 ^ 31) (hG : 3 * ((2 * m : ℕ) * M) ≤ G)
    (hm : m0 ≤ scR (2 * m) mode * M) (hv : ∀ t ≤ m, Ap (v t) (v' t) M k) :
    ∀ t < 2 * m, Ap (rfftInvOut ℂ thr mode m v t) (rfftInvOut C thr mode m v' t) (3 * ((2 * m : ℕ) * (scR (2 * m) mode * M)))
      (k + errWeight m + 84) := by
  have hM0 : 0 ≤ M := L.nonneg (hv 0 (by omega))
  have hm1 : (1:ℝ) ≤ m := by exact_mod_cast (by omega : 1 ≤ m)
  have hu := fun t (ht : t ≤ 2 * m) => L.rfftTab_ap (N := 2 * m) (t := t) (by omega) h31 ht
  push_cast at hG
  have hmM : 0 ≤ m * M := by positivity
  have hI : 1 ≤ (2 * m : ℝ) * scI (2 * m) mode ∧ scR (2 * m) mode ≤ scI (2 * m) mode ∧ scI (2 * m) mode ≤ 2 ∧
      scR (2 * m) mode ≤ scR m (rfftInvMode mode) * scI (2 * m) mode := by
    have h2m : (1:ℝ) ≤ (2 * m : ℕ) := by push_cast; linarith
    have hsq := Real.one_le_sqrt.2 h2m
    have hq : √((2 * m : ℕ) : ℝ) ≤ (2 * m : ℕ) := by rw [Real.sqrt_le_left (by linarith)]; nlinarith
    cases mode
    · exact ⟨by show 1 ≤ 2 * (m:ℝ) * 2; linarith, by show (1:ℝ) ≤ 2; norm_num, le_rfl, by show (1:ℝ) ≤ 1 * 2; norm_num⟩
    · refine ⟨?_, ?_, ?_, ?_⟩
      · show 1 ≤ 2 * (m:ℝ) * (2 / √(2 * m : ℕ))
        rw [mul_div_assoc', le_div_iff₀ (by linarith)]; push_cast at hq ⊢; linarith
      · show 1 / √(2 * m : ℕ) ≤ 2 / √(2 * m : ℕ)
        exact div_le_div_of_nonneg_right (by norm_num) (by linarith)
      · show 2 / √(2 * m : ℕ) ≤ 2
        rw [div_le_iff₀ (by linarith)]; linarith
      · show 1 / √(2 * m : ℕ) ≤ 1 * (2 / √(2 * m : ℕ))
        rw [one_mul]
        exact div_le_div_of_nonneg_right (by norm_num) (by linarith)
    · refine ⟨?_, ?_, ?_, ?_⟩
      · show 1 ≤ 2 * (m:ℝ) * 1; linarith
      · show 1 / ((2 * m : ℕ) : ℝ) ≤ 1
        rw [div_le_one (by linarith)]; exact h2m
      · show (1:ℝ) ≤ 2; norm_num
      · show 1 / ((2 * m : ℕ) : ℝ) ≤ 1 / (m:ℝ) * 1
        rw [mul_one]
        apply one_div_le_one_div_of_le (by linarith); push_cast; linarith
  obtain ⟨-, hI2, hI3, hI4⟩ := hI
  have hsR : 0 < scR (2 * m) mode := ApLaws.scR_pos _ _ (by omega)
  have hI0 : 0 ≤ scI (2 * m) mode := by linarith
  have hpre : ∀ p < m, Ap (rfftPreOut mode m (rfftTab ℂ (2 * m)) v p) (rfftPreOut mode m (rfftTab C (2 * m)) v' p)
      (scI (2 * m) mode * (3 * M)) (k + 84) := by
    intro p hp
    have a := hv p (by omega)
    have b := hv (m - p) (by omega)
    have h := L.mono (L.tw_mul (hu p (by omega)) (L.sub (L.cnj a) b)) (M' := 2 * M) (k' := k + 77) (by linarith) (by omega)
    have h2 := L.mono (L.cnj (L.sub (L.cnj a) h)) (M' := 3 * M) (k' := k + 78) (by linarith) (by omega)
    exact L.rscInv (2 * m) mode (by omega) h31 h2 (by nlinarith) (le_trans hm (by nlinarith))
  have h := L.fftOut_ap (thr := thr) (inv := true) (mode := rfftInvMode mode) hm2 (by omega)
    (le_trans (by nlinarith [mul_nonneg hmM (sub_nonneg.2 hI3)]) hG) (le_trans hm (by
      have : scR (2 * m) mode * M ≤ scR m (rfftInvMode mode) * scI (2 * m) mode * M := mul_le_mul_of_nonneg_right hI4 hM0
      nlinarith [mul_nonneg (mul_nonneg (le_trans hsR.le hI4) hM0) zero_le_two])) hpre
  rw [scI_eq (by omega)] at h
  intro t ht
  have e : ((2 * m : ℕ) : ℝ) * (scR (2 * m) mode * (3 * M)) = 3 * ((2 * m : ℕ) * (scR (2 * m) mode * M)) := by ring
  rw [e] at h
  have hk : k + 84 + errWeight m = k + errWeight m + 84 := by omega
  rw [hk] at h
  unfold rfftInvOut unpackD
  split
  · exact L.re (h _ (by omega))
  · exact L.im (h _ (by omega))

/-! ### the cosine transforms -/

theorem dctFwd_ap (L : ApReal Ap m0 G) (hm2 : 2 ≤ m) (h31 : 2 * (2 * m) ≤ 2 ^ 31) (hG : 9 / 4 * ((2 * m : ℕ) * M) ≤ G)
    (hm : m0 ≤ scR (2 * m) mode * M) (hv : ∀ t < 2 * m, Ap (v t) (v' t) M k) :
    ∀ t < 2 * m, Ap (dctTw ℂ (dctTab ℂ (2 * m)) (rfftFwdOut ℂ thr mode m (dctGath m v)) t)
      (dctTw C (dctTab C (2 * m)) (rfftFwdOut C thr mode m (dctGath m v')) t) (9 / 4 * ((2 * m : ℕ) * (scR (2 * m) mode * M)))
      (k + errWeight m + 117) := by
  have h := L.rfftFwd_ap (thr := thr) (mode := mode) (v := dctGath m v) (v' := dctGath m v') hm2 (by omega) hG hm (fun q hq => by
    unfold dctGath
    split
    · exact hv _ (by omega)
    · exact hv _ (by omega))
  intro t ht
  have hw := L.dctTab_ap (N := 2 * m) (t := t) (by omega) h31 (by omega)
  unfold dctTw
  split
  · exact L.mono (L.dotRe hw (h t ht) _ _) le_rfl (by omega)
  · exact L.mono (L.dotIm hw (h t ht) _ _) le_rfl (by omega)

theorem dctPre_ap (L : ApReal Ap m0 G) (h1 : 1 ≤ m) (h31 : 2 * (2 * m) ≤ 2 ^ 31) (hv : ∀ t < 2 * m, Ap (v t) (v' t) M k)
    {t : ℕ} (ht : t < 2 * m) : Ap (dctPreV ℂ (2 * m) (dctTab ℂ (2 * m)) v t) (dctPreV C (2 * m) (dctTab C (2 * m)) v' t)
      (3 / 2 * M) (k + 33) := by
  have hM0 : 0 ≤ M := L.nonneg (hv 0 (by omega))
  unfold dctPreV
  split
  · exact L.mono (L.re (hv 0 (by omega))) (by linarith) (by omega)
  · exact L.mono (L.cmul (L.dctTab_ap (N := 2 * m) (t := t) (by omega) h31 (by omega))
      (L.cmk (L.re (hv t ht)) (L.dneg (L.re (hv (2 * m - t) (by omega)))))) le_rfl (by omega)

theorem dctInv_ap (L : ApReal Ap m0 G) (hm2 : 2 ≤ m) (h31 : 2 * (2 * m) ≤ 2 ^ 31) (hG : 9 / 2 * ((2 * m : ℕ) * M) ≤ G)
    (hm : m0 ≤ scR (2 * m) mode * M) (hv : ∀ t < 2 * m, Ap (v t) (v' t) M k) :
    ∀ t < 2 * m, Ap (dctScat m (rfftInvOut ℂ thr mode m (dctPreV ℂ (2 * m) (dctTab ℂ (2 * m)) v)) t)
      (dctScat m (rfftInvOut C thr mode m (dctPreV C (2 * m) (dctTab C (2 * m)) v')) t)
      (9 / 2 * ((2 * m : ℕ) * (scR (2 * m) mode * M))) (k + errWeight m + 117) := by
  have hM0 : 0 ≤ M := L.nonneg (hv 0 (by omega))
  have hsR : 0 < scR (2 * m) mode := ApLaws.scR_pos _ _ (by omega)
  have h := L.rfftInv_ap (thr := thr) (mode := mode) (M := 3 / 2 * M) (k := k + 33)
    (v := dctPreV ℂ (2 * m) (dctTab ℂ (2 * m)) v) (v' := dctPreV C (2 * m) (dctTab C (2 * m)) v') hm2 (by omega) (by linarith)
    (le_trans hm (by nlinarith)) (fun q hq => L.dctPre_ap (by omega) h31 hv (by omega))
  have e : 3 * (((2 * m : ℕ) : ℝ) * (scR (2 * m) mode * (3 / 2 * M))) = 9 / 2 * ((2 * m : ℕ) * (scR (2 * m) mode * M)) := by ring
  rw [e, show k + 33 + errWeight m + 84 = k + errWeight m + 117 by omega] at h
  intro t ht
  unfold dctScat
  split
  · exact h _ (by omega)
  · exact h _ (by omega)

/-! ### all entry points -/

variable {n : ℕ}

theorem scR_one (mode : ScaleMode) : scR 1 mode = 1 := by cases mode <;> simp [scR]

theorem rfftOut_ap (L : ApReal Ap m0 G) (hn : RealLen n) (e : Entry) (hG : 3 * (n * M) ≤ G) (hm : m0 ≤ scR n e.mode * M)
    (hv : ∀ t < rfftNeed e n, Ap (v t) (v' t) M k) :
    ∀ t < n, Ap (rfftOut ℂ thr e n v t) (rfftOut C thr e n v' t) (3 * (n * (scR n e.mode * M))) (k + errWeight (n / 2) + 84) := by
  intro t ht
  unfold rfftOut
  have h0 := hv 0 (by unfold rfftNeed; split <;> omega)
  have hM0 : 0 ≤ M := L.nonneg h0
  rcases hn with rfl | ⟨m, rfl, hm', h31⟩
  · rw [if_pos rfl, if_pos rfl, scR_one, Nat.cast_one, one_mul, one_mul]
    exact L.mono (L.re h0) (by linarith) (by omega)
  · have h2 := hm'.two
    have hsR : 0 < scR (2 * m) e.mode := ApLaws.scR_pos _ _ (by omega)
    have hp : 0 ≤ ((2 * m : ℕ) : ℝ) * (scR (2 * m) e.mode * M) := by positivity
    rw [if_neg (by omega : ¬ 2 * m = 1), if_neg (by omega : ¬ 2 * m = 1), show 2 * m / 2 = m by omega]
    unfold rfftNeed at hv
    split
    · rename_i he
      rw [if_pos he] at hv
      exact L.rfftInv_ap h2 h31.le hG hm (fun t ht => hv t (by omega)) t ht
    · rename_i he
      rw [if_neg he] at hv
      have hp' : 0 ≤ ((2 * m : ℕ) : ℝ) * M := by positivity
      exact L.mono (L.rfftFwd_ap h2 h31.le (by linarith) hm hv t ht) (by linarith) le_rfl

theorem dctOut_ap (L : ApReal Ap m0 G) (hn : RealLen n) (h30 : n < 2 ^ 30) (e : DctEntry) (hG : 9 / 2 * (n * M) ≤ G)
    (hm : m0 ≤ scR n e.mode * M) (hv : ∀ t < n, Ap (v t) (v' t) M k) :
    ∀ t < n, Ap (dctOut ℂ thr e n v t) (dctOut C thr e n v' t) (9 / 2 * (n * (scR n e.mode * M))) (k + errWeight (n / 2) + 117) := by
  intro t ht
  unfold dctOut
  have h0 := hv 0 (by omega)
  have hM0 : 0 ≤ M := L.nonneg h0
  rcases hn with rfl | ⟨m, rfl, hm', h31⟩
  · rw [if_pos rfl, if_pos rfl, scR_one, Nat.cast_one, one_mul, one_mul]
    exact L.mono (hv t ht) (by linarith) (by omega)
  · have h2 := hm'.two
    have hsR : 0 < scR (2 * m) e.mode := ApLaws.scR_pos _ _ (by omega)
    have hp : 0 ≤ ((2 * m : ℕ) : ℝ) * (scR (2 * m) e.mode * M) := by positivity
    have hp' : 0 ≤ ((2 * m : ℕ) : ℝ) * M := by positivity
    rw [if_neg (by omega : ¬ 2 * m = 1), if_neg (by omega : ¬ 2 * m = 1), show 2 * m / 2 = m by omega]
    have er : ∀ (D : Type) [CArith F D] (u : ℕ → D), rfftOut D thr e.real (2 * m) u =
        if e.isInv then rfftInvOut D thr e.mode m u else rfftFwdOut D thr e.mode m u := by
      intro D _ u
      unfold rfftOut
      rw [if_neg (by omega : ¬ 2 * m = 1), show 2 * m / 2 = m by omega, DctEntry.real_isInv]
      rfl
    have er' : ∀ u : ℕ → ℂ, rfftOut ℂ thr e.real (2 * m) u =
        if e.isInv then rfftInvOut ℂ thr e.mode m u else rfftFwdOut ℂ thr e.mode m u := by
      intro u
      unfold rfftOut
      rw [if_neg (by omega : ¬ 2 * m = 1), show 2 * m / 2 = m by omega, DctEntry.real_isInv]
      rfl
    rw [er, er', er, er']
    split
    · exact L.dctInv_ap h2 (by omega) hG hm hv t ht
    · exact L.mono (L.dctFwd_ap h2 (by omega) (by linarith) hm hv t ht) (by linarith) le_rfl

end ApReal
end OTFFT
