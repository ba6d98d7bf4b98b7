/-
C72, C73: impulses and constants through the real transforms and the cosine transforms, without any rounding error.
-/
import Verif.Props.Impulse
import Verif.Props.Mirror
import Verif.Props.DCT

namespace OTFFT.Props

variable {ρ : ℝ → ℝ} {n : ℕ}

variable [Libm]

/-- the number zero -/
theorem rz (z : Rounded ρ) (hz : z.val = 0) : z = fofNat 0 := by
  cases z
  subst hz
  exact congrArg Rounded.mk Nat.cast_zero.symm

omit [Libm] in
theorem addpz_arith {F : Type} [FArith F] (i : Target) (a b : Xmm F) : (letI := i.arith F; addpz a b) = ![fadd (a 0) (b 0), fadd (a 1) (b 1)] := by
  obtain ⟨s2, s3, f, av, a5⟩ := i
  cases s2 <;> cases s3 <;> cases f <;> (funext j; fin_cases j <;> rfl)

omit [Libm] in
theorem subpz_arith {F : Type} [FArith F] (i : Target) (a b : Xmm F) : (letI := i.arith F; subpz a b) = ![fsub (a 0) (b 0), fsub (a 1) (b 1)] := by
  obtain ⟨s2, s3, f, av, a5⟩ := i
  cases s2 <;> cases s3 <;> cases f <;> (funext j; fin_cases j <;> rfl)

omit [Libm] in
theorem scl_arith {F : Type} [FArith F] (i : Target) (r : F) (a : Xmm F) : (letI := i.arith F; scl r a) = ![fmul r (a 0), fmul r (a 1)] := by
  obtain ⟨s2, s3, f, av, a5⟩ := i
  cases s2 <;> cases s3 <;> cases f <;> (funext j; fin_cases j <;> rfl)

omit [Libm] in
/-- the operations of the real transforms on zero and on real numbers -/
theorem cnj_real {F : Type} [FArith F] [Inhabited F] {Rep : F → Prop} (Z : ZeroOne F Rep) (i : Target) (c : F) :
    (letI := i.arith F; cnjpz (![c, fofNat 0] : Xmm F)) = ![c, fofNat 0] := by
  rw [cnjpz_arith]
  exact ext2 rfl Z.negZ

omit [Libm] in
theorem rsc_zero {F : Type} [FArith F] {Rep : F → Prop} (Z : ZeroOne F Rep) (i : Target) (mode : ScaleMode) (N : ℕ) :
    (letI := i.arith F; rsc mode N (cZero F)) = cZero F := by
  letI := i.arith F
  have h : ∀ r : F, scl r (cZero F) = cZero F := fun r => by
    rw [scl_arith i]
    exact ext2 (Z.mulZ _) (Z.mulZ _)
  cases mode
  · rfl
  · exact h _
  · exact h _

theorem rfft_impulse (hρ : KeepsDoubles ρ) (i : Target) (thr : Thr) (hn : RealLen n) {d : ℕ → Rounded ρ} {c : Rounded ρ}
    (hc : ρ c.val = c.val) (h0 : d 0 = c) (h : ∀ t < n, t ≠ 0 → (d t).val = 0) :
    letI := i.arith (Rounded ρ)
    ∀ t < n, rfftOut (Xmm (Rounded ρ)) thr .fwd0 n (doubles d) t = ![c, fofNat 0] := by
  letI := i.arith (Rounded ρ)
  have Z := rounded_zeroOne hρ
  have L := flatLaws Z i
  intro t ht
  rcases hn with rfl | ⟨m, rfl, hm, -⟩
  · rw [show t = 0 by omega, rfftOut, if_pos rfl]
    show (![d 0, fofNat 0] : Xmm (Rounded ρ)) = _
    rw [h0]
  have h2 := hm.two
  have hr : ρ c.val = c.val ∧ ρ (fofNat 0 : Rounded ρ).val = (fofNat 0 : Rounded ρ).val := ⟨hc, Z.repZ⟩
  rw [rfftOut, if_neg (by omega)]
  show rfftPostOut (Xmm (Rounded ρ)) .scale_1 (2 * m / 2) (rfftTab (Xmm (Rounded ρ)) (2 * (2 * m / 2)))
    (fftOut (Xmm (Rounded ρ)) thr false .scale_1 (2 * m / 2) (rfftZin (Xmm (Rounded ρ)) (doubles d))) t = _
  rw [show 2 * m / 2 = m by omega]
  have hZ : ∀ s < m, fftOut (Xmm (Rounded ρ)) thr false .scale_1 m (rfftZin (Xmm (Rounded ρ)) (doubles d)) s = ![c, fofNat 0] := by
    refine L.fft_imp h2 (fun h => by cases h) hr fun s hs => ?_
    show (![d (2 * s), d (2 * s + 1)] : Xmm (Rounded ρ)) = _
    split
    · rw [show s = 0 by omega, h0, rz (d (2 * 0 + 1)) (h _ (by omega) (by omega))]
    · exact ext2 (rz _ (h _ (by omega) (by omega))) (rz _ (h _ (by omega) (by omega)))
  generalize fftOut (Xmm (Rounded ρ)) thr false .scale_1 m (rfftZin (Xmm (Rounded ρ)) (doubles d)) = W at hZ ⊢
  generalize rfftTab (Xmm (Rounded ρ)) (2 * m) = U
  have hmid : ∀ s, 1 ≤ s → s < m → rfftMid .scale_1 m U W s = (![c, fofNat 0] : Xmm (Rounded ρ)) := by
    intro s h1 hs
    unfold rfftMid rsc
    rw [hZ s hs, hZ (m - s) (by omega), cnj_real Z i, L.subSelf, L.mulO, L.mulO, L.subO hr, L.addO hr, cnj_real Z i, ite_self]
  unfold rfftPostOut
  split
  · rw [hZ 0 (by omega)]
    exact ext2 (Z.addZ hc) rfl
  split
  · exact hmid t (by omega) (by omega)
  split
  · rw [hZ 0 (by omega)]
    exact ext2 (Z.subZ hc) rfl
  · rw [hmid (2 * m - t) (by omega) (by omega), cnj_real Z i]

theorem rfft_constant (hρ : KeepsDoubles ρ) (i : Target) (thr : Thr) {k : ℕ} (h1 : 1 ≤ k) (hk : k ≤ 24)
    {d : ℕ → Rounded ρ} {c : Rounded ρ} (hc : ρ c.val = c.val) (h : ∀ t < 2 * 2 ^ k, d t = c) {e : Entry} (he : e.isInv = false) :
    letI := i.arith (Rounded ρ)
    ∀ t < 2 * 2 ^ k, rfftOut (Xmm (Rounded ρ)) thr e (2 * 2 ^ k) (doubles d) t =
      if t = 0 then ![rsc0 (Rounded ρ) e.mode (2 * 2 ^ k) ⟨(2 * 2 ^ k : ℕ) * c.val⟩, fofNat 0]
      else if t = 2 ^ k then ![rsc0 (Rounded ρ) e.mode (2 * 2 ^ k) (fofNat 0), fofNat 0] else cZero (Rounded ρ) := by
  letI := i.arith (Rounded ρ)
  have Z := rounded_zeroOne hρ
  have L := flatLaws Z i
  intro t ht
  generalize hm : 2 ^ k = m at *
  have h2 : 2 ≤ m := by rw [← hm]; exact Nat.le_self_pow (by omega) 2
  have hr : ρ c.val = c.val ∧ ρ c.val = c.val := ⟨hc, hc⟩
  have hd := dbl_val hρ i (c := ![c, c]) hr k
  have hdr := L.dbl_rep (a := ![c, c]) hr k
  rw [rfftOut, if_neg (by omega), he]
  show rfftPostOut (Xmm (Rounded ρ)) e.mode (2 * m / 2) (rfftTab (Xmm (Rounded ρ)) (2 * (2 * m / 2)))
    (fftOut (Xmm (Rounded ρ)) thr false .scale_1 (2 * m / 2) (rfftZin (Xmm (Rounded ρ)) (doubles d))) t = _
  rw [show 2 * m / 2 = m by omega]
  have hZ : ∀ s < m, fftOut (Xmm (Rounded ρ)) thr false .scale_1 m (rfftZin (Xmm (Rounded ρ)) (doubles d)) s =
      if s < 1 then FlatLaws.dbl (F := Rounded ρ) k ![c, c] else cZero (Rounded ρ) := by
    refine L.fft_con h1 hk hm.symm hr fun s hs => ?_
    show (![d (2 * s), d (2 * s + 1)] : Xmm (Rounded ρ)) = _
    rw [h _ (by omega), h _ (by omega)]
  generalize fftOut (Xmm (Rounded ρ)) thr false .scale_1 m (rfftZin (Xmm (Rounded ρ)) (doubles d)) = W at hZ ⊢
  generalize rfftTab (Xmm (Rounded ρ)) (2 * m) = U
  generalize FlatLaws.dbl (F := Rounded ρ) k (![c, c] : Xmm (Rounded ρ)) = D at *
  have hD : D 0 = D 1 := by
    have : (D 0).val = (D 1).val := by rw [hd.1, hd.2]; rfl
    generalize D 0 = a at this
    generalize D 1 = b at this
    cases a; cases b; exact congrArg _ this
  have hW0 : W 0 = D := by rw [hZ 0 (by omega), if_pos (by omega)]
  have hW : ∀ s, 1 ≤ s → s < m → W s = cZero (Rounded ρ) := fun s h1 hs => by rw [hZ s hs, if_neg (by omega)]
  have hcz : cnjpz (cZero (Rounded ρ)) = cZero (Rounded ρ) := cnj_real Z i _
  have hmid : ∀ s, 1 ≤ s → s < m → rfftMid e.mode m U W s = cZero (Rounded ρ) := by
    intro s h1 hs
    unfold rfftMid
    rw [hW s h1 hs, hW (m - s) (by omega) (by omega), hcz, L.subSelf, L.mulO, L.mulO, L.subSelf, L.addO L.repO, hcz, ite_self]
    exact rsc_zero Z i _ _
  unfold rfftPostOut
  split
  · rw [hW0]
    refine ext2 (congrArg (rsc0 (Rounded ρ) e.mode (2 * m)) ?_) rfl
    show fadd (D 0) (D 1) = _
    rw [← hD]
    refine congrArg Rounded.mk (show ρ ((D 0).val + (D 0).val) = _ from ?_)
    rw [hρ.dbl _ hdr.1, hd.1, ← hm]
    push_cast
    show 2 ^ k * c.val + 2 ^ k * c.val = _
    ring
  split
  · rw [if_neg (by omega)]
    exact hmid t (by omega) (by omega)
  split
  · rw [hW0]
    refine ext2 (congrArg (rsc0 (Rounded ρ) e.mode (2 * m)) ?_) rfl
    show fsub (D 0) (D 1) = _
    rw [← hD, Z.subSelf]
  · rw [hmid (2 * m - t) (by omega) (by omega)]
    exact hcz

/-! ### the inverse transform -/

omit [Libm] in
theorem rounded_ext {a b : Rounded ρ} (h : a.val = b.val) : a = b := by cases a; cases b; exact congrArg _ h

/-- entry 0 of the weight table is `(1 + i)/2` -/
theorem rfftTab_zero (hρ : KeepsDoubles ρ) (i : Target) {N : ℕ} (hN : 1 ≤ N) :
    letI := i.arith (Rounded ρ)
    rfftTab (Xmm (Rounded ρ)) N 0 = ![⟨ρ (1 / 2)⟩, ⟨ρ (1 / 2)⟩] := by
  letI := i.arith (Rounded ρ)
  have Z := rounded_zeroOne hρ
  have hh : fdiv (fofNat 1) (fofNat 2) = (⟨ρ (1 / 2)⟩ : Rounded ρ) := rounded_ext (show ρ (((1:ℕ):ℝ) / ((2:ℕ):ℝ)) = _ by norm_num)
  have h11 : half (Xmm (Rounded ρ)) (fofNat 1) (fofNat 1) = ![⟨ρ (1 / 2)⟩, ⟨ρ (1 / 2)⟩] := ext2 hh hh
  obtain ⟨f1, f2, f3⟩ := rfftIts_facts (C := Xmm (Rounded ρ)) hN
  have hi : 0 < rfftCnt N := by
    unfold rfftCnt
    split
    · omega
    split <;> omega
  have hex : ∃ tv ∈ rfftIts (Xmm (Rounded ρ)) N 0, tv.1 = 0 := by
    unfold rfftIts
    simp only
    split
    · exact ⟨_, .head _, rfl⟩
    split
    · exact ⟨_, .tail _ (.head _), rfl⟩
    split
    · exact ⟨_, .tail _ (.head _), rfl⟩
    split
    · exact ⟨_, .head _, rfl⟩
    · exact ⟨_, .head _, rfl⟩
  obtain ⟨tv, hm, h0, hl⟩ := lastIdx_some _ _ hex
  rw [rfftTab, tabOf_at hi hl f2]
  have hth : (fmul (fofNat 0) (fdiv (fmul (fofNat 2) fpi) (fofNat N)) : Rounded ρ) = fofNat 0 := Z.zMul _
  unfold rfftIts at hm
  simp only [hth, Z.cos0, Z.sin0, Z.negZ, Z.subZ Z.repO] at hm
  split at hm
  · simp only [List.mem_cons, List.not_mem_nil, or_false] at hm
    rcases hm with rfl | rfl
    · exact h11
    · simp only at h0; omega
  rename_i hp
  split at hm
  · simp only [List.mem_cons, List.not_mem_nil, or_false] at hm
    rcases hm with rfl | rfl <;> exact h11
  split at hm
  · simp only [List.mem_cons, List.not_mem_nil, or_false] at hm
    rcases hm with rfl | rfl | rfl
    · exact h11
    · exact h11
    · cases h0
  split at hm
  · simp only [List.mem_cons, List.not_mem_nil, or_false] at hm
    rcases hm with rfl | rfl | rfl | rfl | rfl
    · exact h11
    · cases h0
    · cases h0
    · cases h0
    · exact h11
  rename_i n1 n2 n4
  obtain ⟨q, hq, hN8⟩ := pow_dvd8 (by simpa using hp) n1 n2 n4
  simp only [List.mem_cons, List.not_mem_nil, or_false] at hm
  rcases hm with rfl | rfl | rfl | rfl | rfl | rfl | rfl | rfl
  · exact h11
  all_goals (simp only at h0; omega)

/-- `(h + i h) c = h c + i h c` -/
theorem mul_half (hρ : KeepsDoubles ρ) (i : Target) {h c : Rounded ρ} (hc : ρ (h.val * c.val) = h.val * c.val) :
    (letI := i.arith (Rounded ρ); mulpz (![h, h] : Xmm (Rounded ρ)) ![c, fofNat 0]) = ![⟨h.val * c.val⟩, ⟨h.val * c.val⟩] := by
  have Z := rounded_zeroOne hρ
  have z : (fofNat 0 : Rounded ρ).val = 0 := Nat.cast_zero
  have zz : ρ (h.val * (fofNat 0 : Rounded ρ).val) = 0 := by rw [z, mul_zero, hρ.zero]
  have e1 : ρ (ρ (h.val * c.val) - ρ (h.val * (fofNat 0 : Rounded ρ).val)) = h.val * c.val := by rw [zz, sub_zero, hc, hc]
  have e2 : ρ (ρ (h.val * (fofNat 0 : Rounded ρ).val) + ρ (h.val * c.val)) = h.val * c.val := by rw [zz, zero_add, hc, hc]
  have e3 : ρ (ρ (h.val * c.val) + ρ (h.val * -(fofNat 0 : Rounded ρ).val)) = h.val * c.val := by
    rw [z, neg_zero, mul_zero, hρ.zero, add_zero, hc, hc]
  have e4 : ρ (h.val * c.val - ρ (h.val * (fofNat 0 : Rounded ρ).val)) = h.val * c.val := by rw [zz, sub_zero, hc]
  have e5 : ρ (h.val * (fofNat 0 : Rounded ρ).val + ρ (h.val * c.val)) = h.val * c.val := by rw [z, mul_zero, zero_add, hc, hc]
  obtain ⟨s2, s3, f, av, a5⟩ := i
  cases s2
  · exact ext2 (rounded_ext e1) (rounded_ext e2)
  · cases s3
    · exact ext2 (rounded_ext e3) (rounded_ext e2)
    · cases f
      · exact ext2 (rounded_ext e1) (rounded_ext e2)
      · exact ext2 (rounded_ext e4) (rounded_ext e5)

theorem rfft_dc (hρ : KeepsDoubles ρ) (hodd : ∀ x, ρ (-x) = -ρ x) (hh : ρ (1 / 2) = 1 / 2) (i : Target) (thr : Thr) {k : ℕ} (h1 : 1 ≤ k) (hk : k ≤ 24)
    {v : ℕ → Xmm (Rounded ρ)} {c : Rounded ρ} (hc : ρ c.val = c.val) (hc2 : ρ (c.val / 2) = c.val / 2)
    (h0 : v 0 = ![c, fofNat 0]) (h : ∀ t ≤ 2 ^ k, t ≠ 0 → v t = cZero (Rounded ρ)) {e : Entry} (he : e = .inv ∨ e = .inv0) :
    letI := i.arith (Rounded ρ)
    ∀ t < 2 * 2 ^ k, rfftOut (Xmm (Rounded ρ)) thr e (2 * 2 ^ k) v t = ![c, fofNat 0] := by
  letI := i.arith (Rounded ρ)
  have Z := rounded_zeroOne hρ
  have L := flatLaws Z i
  intro t ht
  generalize hm : 2 ^ k = m at *
  have h2 : 2 ≤ m := by rw [← hm]; exact Nat.le_self_pow (by omega) 2
  have hcz : cnjpz (cZero (Rounded ρ)) = cZero (Rounded ρ) := cnj_real Z i _
  have ei : e.isInv = true ∧ e.mode = .scale_1 := by rcases he with rfl | rfl <;> exact ⟨rfl, rfl⟩
  have hr : ρ c.val = c.val ∧ ρ (fofNat 0 : Rounded ρ).val = (fofNat 0 : Rounded ρ).val := ⟨hc, Z.repZ⟩
  rw [rfftOut, if_neg (by omega), ei.1, ei.2]
  show rfftInvOut (Xmm (Rounded ρ)) thr .scale_1 (2 * m / 2) v t = _
  rw [show 2 * m / 2 = m by omega, rfftInvOut]
  have hZ : ∀ s < m, fftOut (Xmm (Rounded ρ)) thr true (rfftInvMode .scale_1) m
      (rfftPreOut .scale_1 m (rfftTab (Xmm (Rounded ρ)) (2 * m)) v) s = ![c, c] := by
    refine L.fft_imp h2 (fun _ => ⟨k, hk, hm.symm⟩) (c := ![c, c]) ⟨hc, hc⟩ fun s hs => ?_
    show scl (fofNat 2) (cnjpz (subpz (cnjpz (v s)) (mulpz (rfftTab (Xmm (Rounded ρ)) (2 * m) s) (subpz (cnjpz (v s)) (v (m - s)))))) = _
    by_cases hs1 : s < 1
    · rw [if_pos hs1, show s = 0 by omega, h0, cnj_real Z i, Nat.sub_zero, h m (by omega) (by omega), L.subO hr, rfftTab_zero hρ i (by omega), hh]
      rw [mul_half hρ i (by show ρ (1 / 2 * c.val) = 1 / 2 * c.val; rw [one_div, inv_mul_eq_div]; exact hc2)]
      have hv : (1 / 2 : ℝ) * c.val = c.val / 2 := by ring
      simp only [hv]
      rw [subpz_arith i, cnjpz_arith i, scl_arith i]
      refine ext2 (rounded_ext (show ρ (((2:ℕ):ℝ) * ρ (c.val - c.val / 2)) = c.val from ?_))
        (rounded_ext (show ρ (((2:ℕ):ℝ) * -ρ (((0:ℕ):ℝ) - c.val / 2)) = c.val from ?_))
      · rw [show c.val - c.val / 2 = c.val / 2 by ring, hc2, show ((2:ℕ):ℝ) * (c.val / 2) = c.val by push_cast; ring, hc]
      · rw [Nat.cast_zero, zero_sub, hodd, hc2, neg_neg, show ((2:ℕ):ℝ) * (c.val / 2) = c.val by push_cast; ring, hc]
    · rw [if_neg hs1, h s (by omega) (by omega), h (m - s) (by omega) (by omega), hcz, L.subSelf, L.mulO, L.subSelf, hcz, scl_arith i]
      exact ext2 (Z.mulZ _) (Z.mulZ _)
  unfold unpackD
  rw [hZ _ (by omega)]
  split <;> rfl

/-! ### the cosine transform -/

omit [Libm] in
theorem mulpd_arith {F : Type} [FArith F] (i : Target) (a b : Xmm F) : (letI := i.arith F; (CArith.mulpd a b : Xmm F)) = ![fmul (a 0) (b 0), fmul (a 1) (b 1)] := by
  obtain ⟨s2, s3, f, av, a5⟩ := i
  cases s2 <;> cases s3 <;> cases f <;> (funext j; fin_cases j <;> rfl)

omit [Libm] in
theorem dctTw_eq {F : Type} [FArith F] (i : Target) (V Z : ℕ → Xmm F) (k : ℕ) :
    letI := i.arith F
    dctTw (Xmm F) V Z k = ![fadd (fmul (V k 0) (Z k 0)) (fmul (V k 1) (Z k 1)), fofNat 0] := by
  letI := i.arith F
  unfold dctTw haddpz
  simp only [mulpd_arith i]
  split <;> rfl

theorem cmul_zero (hρ : KeepsDoubles ρ) (i : Target) (a : Xmm (Rounded ρ)) :
    (letI := i.arith (Rounded ρ); (CArith.cmul a (cZero (Rounded ρ)) : Xmm (Rounded ρ))) = cZero (Rounded ρ) := by
  have Z := rounded_zeroOne hρ
  have e0 : fsub (fmul (a 0) (fofNat 0)) (fmul (a 1) (fofNat 0)) = (fofNat 0 : Rounded ρ) := by rw [Z.mulZ, Z.mulZ, Z.subSelf]
  have e1 : fadd (fmul (a 0) (fofNat 0)) (fmul (a 1) (fofNat 0)) = (fofNat 0 : Rounded ρ) := by rw [Z.mulZ, Z.mulZ, Z.addZ Z.repZ]
  exact ext2 e0 e1

theorem dctTab_zero (hρ : KeepsDoubles ρ) (i : Target) {N : ℕ} (hN : 1 ≤ N) :
    letI := i.arith (Rounded ρ)
    dctTab (Xmm (Rounded ρ)) N 0 = cOne (Rounded ρ) := by
  letI := i.arith (Rounded ρ)
  have Z := rounded_zeroOne hρ
  obtain ⟨f1, f2, f3⟩ := dctIts_facts (C := Xmm (Rounded ρ)) N
  obtain ⟨tv, hm, h0, hl⟩ := lastIdx_some (dctIts (Xmm (Rounded ρ)) N 0) 0 ⟨_, .head _, rfl⟩
  rw [dctTab, tabOf_at (by omega) hl f2]
  simp only [dctIts, List.mem_cons, List.not_mem_nil, or_false] at hm
  rcases hm with rfl | rfl
  · show (![fcos (fmul (fofNat 0) (fdiv fpi (fofNat (2 * N)))), fsin (fmul (fofNat 0) (fdiv fpi (fofNat (2 * N))))] : Xmm (Rounded ρ)) = _
    rw [Z.zMul, Z.cos0, Z.sin0]
    rfl
  · simp only at h0; omega

/-- the reordering of the cosine transform, on doubles -/
def dctGath' (m : ℕ) (d : ℕ → Rounded ρ) (q : ℕ) : Rounded ρ := if q < m then d (2 * q) else d (2 * (2 * m - 1 - q) + 1)

theorem dct_constant (hρ : KeepsDoubles ρ) (i : Target) (thr : Thr) {k : ℕ} (h1 : 1 ≤ k) (hk : k ≤ 24)
    {d : ℕ → Rounded ρ} {c : Rounded ρ} (hc : ρ c.val = c.val) (h : ∀ t < 2 * 2 ^ k, d t = c) {e : DctEntry} (he : e ∈ [DctEntry.fwd, .fwd0, .fwdn]) :
    letI := i.arith (Rounded ρ)
    ∀ t < 2 * 2 ^ k, dctOut (Xmm (Rounded ρ)) thr e (2 * 2 ^ k) (doubles d) t =
      if t = 0 then ![⟨if e = .fwd0 then (2 * 2 ^ k : ℕ) * c.val else c.val⟩, fofNat 0] else cZero (Rounded ρ) := by
  letI := i.arith (Rounded ρ)
  have Z := rounded_zeroOne hρ
  have zv : (fofNat 0 : Rounded ρ).val = 0 := Nat.cast_zero
  have hi : e.isInv = false ∧ e.real.isInv = false := by
    simp only [List.mem_cons, List.not_mem_nil, or_false] at he
    rcases he with rfl | rfl | rfl <;> exact ⟨rfl, rfl⟩
  intro t ht
  have h2 : 2 ≤ 2 ^ k := Nat.le_self_pow (by omega) 2
  have hg : dctGath (2 * 2 ^ k / 2) (doubles d) = doubles (dctGath' (2 ^ k) d) := by
    funext q
    rw [show 2 * 2 ^ k / 2 = 2 ^ k by omega]
    show (if q < 2 ^ k then ![d (2 * q), fofNat 0] else ![d (2 * (2 * 2 ^ k - 1 - q) + 1), fofNat 0]) =
      (![if q < 2 ^ k then d (2 * q) else d (2 * (2 * 2 ^ k - 1 - q) + 1), fofNat 0] : Xmm (Rounded ρ))
    split <;> rfl
  rw [dctOut, if_neg (by omega), hi.1]
  simp only [Bool.false_eq_true, if_false]
  rw [hg, dctTw_eq i, rfft_constant hρ i thr h1 hk hc (fun q hq => by
    unfold dctGath'
    split
    · exact h _ (by omega)
    · exact h _ (by omega)) hi.2 t ht]
  have hr : ρ (((2 * 2 ^ k : ℕ) : ℝ) * c.val) = ((2 * 2 ^ k : ℕ) : ℝ) * c.val := by
    have hd := dbl_val hρ i (c := ![c, c]) ⟨hc, hc⟩ (k + 1)
    have hdr := (flatLaws Z i).dbl_rep (a := ![c, c]) ⟨hc, hc⟩ (k + 1)
    have := hdr.1
    rw [hd.1] at this
    push_cast
    rw [pow_succ, mul_comm (2 ^ k : ℝ) 2] at this
    exact this
  have hp : ((2 * 2 ^ k : ℕ) : ℝ) ≠ 0 := by positivity
  have hdd : ρ (((2 * 2 ^ k : ℕ) : ℝ) * c.val / ((2 * 2 ^ k : ℕ) : ℝ)) = c.val := by rw [mul_div_cancel_left₀ _ hp, hc]
  have hsc : rsc0 (Rounded ρ) e.real.mode (2 * 2 ^ k) ⟨((2 * 2 ^ k : ℕ) : ℝ) * c.val⟩ =
      ⟨if e = .fwd0 then ((2 * 2 ^ k : ℕ) : ℝ) * c.val else c.val⟩ := by
    simp only [List.mem_cons, List.not_mem_nil, or_false] at he
    rcases he with rfl | rfl | rfl
    · exact rounded_ext hdd
    · rfl
    · exact rounded_ext hdd
  have hs0 : rsc0 (Rounded ρ) e.real.mode (2 * 2 ^ k) (fofNat 0) = fofNat 0 := by
    have hz : ρ ((fofNat 0 : Rounded ρ).val / ((2 * 2 ^ k : ℕ) : ℝ)) = (fofNat 0 : Rounded ρ).val := by rw [zv, zero_div, hρ.zero]
    simp only [List.mem_cons, List.not_mem_nil, or_false] at he
    rcases he with rfl | rfl | rfl
    · exact rounded_ext hz
    · rfl
    · exact rounded_ext hz
  rw [hsc, hs0]
  by_cases h0 : t = 0
  · subst h0
    rw [if_pos rfl, if_pos rfl, dctTab_zero hρ i (by omega)]
    refine ext2 ?_ rfl
    show fadd (fmul (fofNat 1) (⟨_⟩ : Rounded ρ)) (fmul (fofNat 0) (fofNat 0)) = _
    have hrep : ρ (if e = .fwd0 then ((2 * 2 ^ k : ℕ) : ℝ) * c.val else c.val) = if e = .fwd0 then ((2 * 2 ^ k : ℕ) : ℝ) * c.val else c.val := by
      split
      · exact hr
      · exact hc
    generalize (if e = .fwd0 then ((2 * 2 ^ k : ℕ) : ℝ) * c.val else c.val) = q at hrep ⊢
    have hrep : ρ (⟨q⟩ : Rounded ρ).val = (⟨q⟩ : Rounded ρ).val := hrep
    rw [Z.mulZ, Z.oMul hrep, Z.addZ hrep]
    rfl
  · have hz : (if t = 2 ^ k then (![fofNat 0, fofNat 0] : Xmm (Rounded ρ)) else cZero (Rounded ρ)) = cZero (Rounded ρ) := by
      split <;> rfl
    rw [if_neg h0, if_neg h0, hz]
    refine ext2 ?_ rfl
    show fadd (fmul _ (fofNat 0)) (fmul _ (fofNat 0)) = _
    rw [Z.mulZ, Z.mulZ, Z.addZ Z.repZ]
    rfl

theorem dct_dc (hρ : KeepsDoubles ρ) (hodd : ∀ x, ρ (-x) = -ρ x) (hh : ρ (1 / 2) = 1 / 2) (i : Target) (thr : Thr) {k : ℕ} (h1 : 1 ≤ k) (hk : k ≤ 24)
    {v : ℕ → Xmm (Rounded ρ)} {c : Rounded ρ} (hc : ρ c.val = c.val) (hc2 : ρ (c.val / 2) = c.val / 2)
    (h0 : v 0 0 = c) (h : ∀ t < 2 * 2 ^ k, t ≠ 0 → (v t 0).val = 0) {e : DctEntry} (he : e = .inv ∨ e = .inv0) :
    letI := i.arith (Rounded ρ)
    ∀ t < 2 * 2 ^ k, dctOut (Xmm (Rounded ρ)) thr e (2 * 2 ^ k) v t = ![c, fofNat 0] := by
  letI := i.arith (Rounded ρ)
  have Z := rounded_zeroOne hρ
  have h2 : 2 ≤ 2 ^ k := Nat.le_self_pow (by omega) 2
  have hi : e.isInv = true ∧ (e.real = .inv ∨ e.real = .inv0) := by rcases he with rfl | rfl <;> exact ⟨rfl, .inl rfl⟩
  intro t ht
  rw [dctOut, if_neg (by omega), hi.1]
  simp only [if_true]
  have key := rfft_dc hρ hodd hh i thr h1 hk (v := dctPreV (Xmm (Rounded ρ)) (2 * 2 ^ k) (dctTab (Xmm (Rounded ρ)) (2 * 2 ^ k)) v) hc hc2
    (by rw [dctPreV, if_pos rfl]; exact ext2 h0 rfl)
    (fun s hs hs0 => by
      rw [dctPreV, if_neg hs0]
      have e0 : (CArith.cmk (CArith.re (v s)) (fneg (CArith.re (v (2 * 2 ^ k - s)))) : Xmm (Rounded ρ)) = cZero (Rounded ρ) := by
        refine ext2 (rz _ (h s (by omega) hs0)) ?_
        show fneg (v (2 * 2 ^ k - s) 0) = _
        rw [rz _ (h (2 * 2 ^ k - s) (by omega) (by omega)), Z.negZ]
        rfl
      rw [e0]
      exact cmul_zero hρ i _) hi.2
  unfold dctScat
  rw [show 2 * 2 ^ k / 2 = 2 ^ k by omega]
  split
  · exact key _ (by omega)
  · exact key _ (by omega)

/-! ### C72 -/

section
variable {w : World (Xmm (Rounded ρ))} {x y : Ptr} {d : ℕ → Rounded ρ}

/-- C72: a real impulse, `c` in element 0 and zero elsewhere, is transformed into the constant `c`, exactly, for every
length. -/
theorem C72_impulse (hρ : KeepsDoubles ρ) (i : Target) (thr : Thr) (hn : RealLen n) (wf : w.WF) (hx : Arr w.heap x n (doubles d))
    (hy : Alloc w.heap y n) (hxy : Sep x n y n) (hc : ρ (d 0).val = (d 0).val) (h : ∀ t < n, t ≠ 0 → (d t).val = 0) :
    letI := i.arith (Rounded ρ)
    ∃ out : ℕ → Xmm (Rounded ρ), Computes (realFFT (Xmm (Rounded ρ)) thr) n [(.fwd0, x, y)] w y n out ∧
      ∀ t < n, (out t 0).val = (d 0).val ∧ (out t 1).val = 0 := by
  letI := i.arith (Rounded ρ)
  have a : RealArgs w .fwd0 n x y (doubles d) := ⟨wf, hn, hx, hx.alloc, hy, hxy⟩
  refine ⟨_, ComputesIn.toComputes (RFFT.computes (thr := thr) a) (le_refl _) (fun _ _ => rfl), fun t ht => ?_⟩
  rw [rfft_impulse hρ i thr hn hc rfl h t ht]
  exact ⟨rfl, Nat.cast_zero⟩

/-- C72: for the lengths `n = 2^(k+1)`, `4 ≤ n ≤ 2^25`, the real constant `c` is transformed into `n c` in element 0 (`c` if
the transform is normalised) and zero elsewhere, exactly. -/
theorem C72_constant (hρ : KeepsDoubles ρ) (i : Target) (thr : Thr) {k : ℕ} (hn : n = 2 ^ (k + 1)) (h1 : 1 ≤ k) (hk : k ≤ 24)
    (wf : w.WF) (hx : Arr w.heap x n (doubles d)) (hy : Alloc w.heap y n) (hxy : Sep x n y n)
    {c : Rounded ρ} (hc : ρ c.val = c.val) (h : ∀ t < n, d t = c) (e : Entry) (he : e ∈ [Entry.fwd, .fwd0, .fwdn]) :
    letI := i.arith (Rounded ρ)
    ∃ out : ℕ → Xmm (Rounded ρ), Computes (realFFT (Xmm (Rounded ρ)) thr) n [(e, x, y)] w y n out ∧
      (out 0 0).val = (if e = .fwd0 then n * c.val else c.val) ∧ (out 0 1).val = 0 ∧
      ∀ t < n, t ≠ 0 → (out t 0).val = 0 ∧ (out t 1).val = 0 := by
  letI := i.arith (Rounded ρ)
  have hi : e.isInv = false := by
    simp only [List.mem_cons, List.not_mem_nil, or_false] at he
    rcases he with rfl | rfl | rfl <;> rfl
  have hn' : n = 2 * 2 ^ k := by rw [hn, pow_succ]; ring
  have hm := validLen_pow k h1 (by omega)
  have a : RealArgs w e n x y (doubles d) := ⟨wf, .inr ⟨2 ^ k, hn', hm, by
    have := Nat.pow_le_pow_right (n := 2) (by norm_num) hk
    norm_num at this ⊢
    omega⟩, by rw [rfftNeed, hi]; exact hx, hx.alloc, hy, hxy⟩
  refine ⟨_, ComputesIn.toComputes (RFFT.computes (thr := thr) a) (by rw [rfftDirty, hi]; exact le_refl _) (fun _ _ => rfl), ?_⟩
  have key := rfft_constant hρ i thr h1 hk hc (fun t ht => h t (by omega)) hi
  subst hn'
  have z : (fofNat 0 : Rounded ρ).val = 0 := Nat.cast_zero
  have h2 := hm.two
  refine ⟨?_, ?_, fun t ht h0 => ?_⟩
  · rw [key 0 (by omega), if_pos rfl]
    have hp : ((2 * 2 ^ k : ℕ) : ℝ) ≠ 0 := by positivity
    have hd : ρ (((2 * 2 ^ k : ℕ) : ℝ) * c.val / ((2 * 2 ^ k : ℕ) : ℝ)) = c.val := by rw [mul_div_cancel_left₀ _ hp, hc]
    simp only [List.mem_cons, List.not_mem_nil, or_false] at he
    rcases he with rfl | rfl | rfl
    · exact hd
    · rfl
    · exact hd
  · rw [key 0 (by omega), if_pos rfl]
    exact z
  · rw [key t ht, if_neg h0]
    split
    · refine ⟨?_, z⟩
      have hd : ρ ((fofNat 0 : Rounded ρ).val / ((2 * 2 ^ k : ℕ) : ℝ)) = 0 := by rw [z, zero_div, hρ.zero]
      simp only [List.mem_cons, List.not_mem_nil, or_false] at he
      rcases he with rfl | rfl | rfl
      · exact hd
      · exact z
      · exact hd
    · exact ⟨z, z⟩

/-- C72: for the same lengths the inverse real transform of a spectrum that is `c` in element 0 and zero elsewhere is the constant
`c`, exactly; `c/2` has to be representable. -/
theorem C72_inverse (hρ : KeepsDoubles ρ) (hodd : ∀ x, ρ (-x) = -ρ x) (hh : ρ (1 / 2) = 1 / 2) (i : Target) (thr : Thr) {k : ℕ}
    (hn : n = 2 ^ (k + 1)) (h1 : 1 ≤ k) (hk : k ≤ 24) (wf : w.WF) {v : ℕ → Xmm (Rounded ρ)} (hx : Arr w.heap x n v)
    (hy : Alloc w.heap y n) (hxy : Sep x n y n) {c : Rounded ρ} (hc : ρ c.val = c.val) (hc2 : ρ (c.val / 2) = c.val / 2)
    (h0 : v 0 0 = c ∧ (v 0 1).val = 0) (h : ∀ t < n, t ≠ 0 → (v t 0).val = 0 ∧ (v t 1).val = 0) (e : Entry) (he : e = .inv ∨ e = .inv0) :
    letI := i.arith (Rounded ρ)
    ∃ out : ℕ → Xmm (Rounded ρ), ComputesIn (realFFT (Xmm (Rounded ρ)) thr) n [(e, x, y)] w (Region x n ∪ Region y n) y n out ∧
      ∀ t < n, (out t 0).val = c.val := by
  letI := i.arith (Rounded ρ)
  have hi : e.isInv = true := by rcases he with rfl | rfl <;> rfl
  have hn' : n = 2 * 2 ^ k := by rw [hn, pow_succ]; ring
  have hm := validLen_pow k h1 (by omega)
  have h2 := hm.two
  have a : RealArgs w e n x y v := ⟨wf, .inr ⟨2 ^ k, hn', hm, by
    have := Nat.pow_le_pow_right (n := 2) (by norm_num) hk
    norm_num at this ⊢
    omega⟩, by rw [rfftNeed, hi]; intro t ht; exact hx t (by simp only [if_true] at ht; omega), hx.alloc, hy, hxy⟩
  have := RFFT.computes (thr := thr) a
  rw [rfftDirty, hi] at this
  refine ⟨_, this, fun t ht => ?_⟩
  subst hn'
  rw [rfft_dc hρ hodd hh i thr h1 hk hc hc2 (ext2 h0.1 (rz _ h0.2)) (fun t ht hz => ext2 (rz _ (h t (by omega) hz).1) (rz _ (h t (by omega) hz).2)) he t ht]
  rfl

/-- C72: a real constant comes back from the round trip (normalised forward, then unnormalised inverse transform) without any
rounding error. -/
theorem C72_round_trip (hρ : KeepsDoubles ρ) (hodd : ∀ x, ρ (-x) = -ρ x) (hh : ρ (1 / 2) = 1 / 2) (i : Target) (thr : Thr) {k : ℕ}
    (hn : n = 2 ^ (k + 1)) (h1 : 1 ≤ k) (hk : k ≤ 24) (wf : w.WF) (hx : Arr w.heap x n (doubles d)) (hy : Alloc w.heap y n)
    (hxy : Sep x n y n) {z : Ptr} (hz : Alloc w.heap z n) (hyz : Sep y n z n)
    {c : Rounded ρ} (hc : ρ c.val = c.val) (hc2 : ρ (c.val / 2) = c.val / 2) (h : ∀ t < n, d t = c)
    (f g : Entry) (hf : f = .fwd ∨ f = .fwdn) (hg : g = .inv ∨ g = .inv0) :
    letI := i.arith (Rounded ρ)
    ∃ out : ℕ → Xmm (Rounded ρ), ComputesIn (realFFT (Xmm (Rounded ρ)) thr) n [(f, x, y), (g, y, z)] w (Region y n) z n out ∧
      ∀ t < n, (out t 0).val = c.val := by
  letI := i.arith (Rounded ρ)
  have hi : f.isInv = false := by rcases hf with rfl | rfl <;> rfl
  have hn' : n = 2 * 2 ^ k := by rw [hn, pow_succ]; ring
  have hm := validLen_pow k h1 (by omega)
  have h2 := hm.two
  have a : RealArgs w f n x y (doubles d) := ⟨wf, .inr ⟨2 ^ k, hn', hm, by
    have := Nat.pow_le_pow_right (n := 2) (by norm_num) hk
    norm_num at this ⊢
    omega⟩, by rw [rfftNeed, hi]; exact hx, hx.alloc, hy, hxy⟩
  refine ⟨_, RFFT.computes2 (thr := thr) (g := g) a hi hz hyz, fun t ht => ?_⟩
  have key := rfft_constant hρ i thr h1 hk hc (fun t ht => h t (by omega)) hi
  subst hn'
  have zv : (fofNat 0 : Rounded ρ).val = 0 := Nat.cast_zero
  have hp : ((2 * 2 ^ k : ℕ) : ℝ) ≠ 0 := by positivity
  have hd : ∀ r : Rounded ρ, rsc0 (Rounded ρ) f.mode (2 * 2 ^ k) r = ⟨ρ (r.val / ((2 * 2 ^ k : ℕ) : ℝ))⟩ := fun r => by
    rcases hf with rfl | rfl <;> rfl
  rw [rfft_dc hρ hodd hh i thr h1 hk hc hc2 ?_ ?_ hg t ht]
  · rfl
  · rw [key 0 (by omega), if_pos rfl, hd]
    refine ext2 (rounded_ext (show ρ (((2 * 2 ^ k : ℕ) : ℝ) * c.val / ((2 * 2 ^ k : ℕ) : ℝ)) = c.val from ?_)) rfl
    rw [mul_div_cancel_left₀ _ hp, hc]
  · intro s hs h0
    rw [key s (by omega), if_neg h0, hd]
    split
    · refine ext2 (rounded_ext (show ρ ((fofNat 0 : Rounded ρ).val / ((2 * 2 ^ k : ℕ) : ℝ)) = (fofNat 0 : Rounded ρ).val from ?_)) rfl
      rw [zv, zero_div, hρ.zero]
    · rfl

/-- C73: for the lengths `n = 2^(k+1)`, `4 ≤ n ≤ 2^25`, the DCT-II of the constant `c` is `n c` in element 0 (`c` if the
transform is normalised) and zero elsewhere, exactly. -/
theorem C73_constant (hρ : KeepsDoubles ρ) (i : Target) (thr : Thr) {k : ℕ} (hn : n = 2 ^ (k + 1)) (h1 : 1 ≤ k) (hk : k ≤ 24)
    (hx : UserArray w x n (doubles d)) {c : Rounded ρ} (hc : ρ c.val = c.val) (h : ∀ t < n, d t = c)
    (e : DctEntry) (he : e ∈ [DctEntry.fwd, .fwd0, .fwdn]) :
    letI := i.arith (Rounded ρ)
    ∃ out : ℕ → Xmm (Rounded ρ), Computes (realDCT (Xmm (Rounded ρ)) thr) n [(e, x)] w x n out ∧
      (out 0 0).val = (if e = .fwd0 then n * c.val else c.val) ∧ ∀ t < n, t ≠ 0 → (out t 0).val = 0 := by
  letI := i.arith (Rounded ρ)
  have hn' : n = 2 * 2 ^ k := by rw [hn, pow_succ]; ring
  have hm := validLen_pow k h1 (by omega)
  have h2 := hm.two
  have hb := Nat.pow_le_pow_right (n := 2) (by norm_num) hk
  norm_num at hb
  refine ⟨_, ComputesIn.toComputes (DCT.computes (thr := thr) hx.wf (.inr ⟨2 ^ k, hn', hm, by omega⟩) (by omega) hx.arr [e])
    (Set.empty_subset _) (fun _ _ => rfl), ?_⟩
  subst hn'
  have key := dct_constant hρ i thr h1 hk hc h he
  constructor
  · rw [List.foldl_cons, List.foldl_nil, key 0 (by omega), if_pos rfl]
    rfl
  · intro t ht h0
    rw [List.foldl_cons, List.foldl_nil, key t ht, if_neg h0]
    exact Nat.cast_zero

/-- C73: for the same lengths the DCT-III of `c` in element 0 and zero elsewhere is the constant `c`, exactly. -/
theorem C73_inverse (hρ : KeepsDoubles ρ) (hodd : ∀ x, ρ (-x) = -ρ x) (hh : ρ (1 / 2) = 1 / 2) (i : Target) (thr : Thr) {k : ℕ}
    (hn : n = 2 ^ (k + 1)) (h1 : 1 ≤ k) (hk : k ≤ 24) (hx : UserArray w x n (doubles d)) {c : Rounded ρ} (hc : ρ c.val = c.val)
    (hc2 : ρ (c.val / 2) = c.val / 2) (h0 : d 0 = c) (h : ∀ t < n, t ≠ 0 → (d t).val = 0) (e : DctEntry) (he : e = .inv ∨ e = .inv0) :
    letI := i.arith (Rounded ρ)
    ∃ out : ℕ → Xmm (Rounded ρ), Computes (realDCT (Xmm (Rounded ρ)) thr) n [(e, x)] w x n out ∧ ∀ t < n, (out t 0).val = c.val := by
  letI := i.arith (Rounded ρ)
  have hn' : n = 2 * 2 ^ k := by rw [hn, pow_succ]; ring
  have hm := validLen_pow k h1 (by omega)
  have hb := Nat.pow_le_pow_right (n := 2) (by norm_num) hk
  norm_num at hb
  refine ⟨_, ComputesIn.toComputes (DCT.computes (thr := thr) hx.wf (.inr ⟨2 ^ k, hn', hm, by omega⟩) (by omega) hx.arr [e])
    (Set.empty_subset _) (fun _ _ => rfl), fun t ht => ?_⟩
  subst hn'
  rw [List.foldl_cons, List.foldl_nil, dct_dc hρ hodd hh i thr h1 hk hc hc2 h0 h he t ht]
  rfl

/-- C73: a constant comes back from the round trip (normalised DCT-II, then DCT-III) without any rounding error. -/
theorem C73_round_trip (hρ : KeepsDoubles ρ) (hodd : ∀ x, ρ (-x) = -ρ x) (hh : ρ (1 / 2) = 1 / 2) (i : Target) (thr : Thr) {k : ℕ}
    (hn : n = 2 ^ (k + 1)) (h1 : 1 ≤ k) (hk : k ≤ 24) (hx : UserArray w x n (doubles d)) {c : Rounded ρ} (hc : ρ c.val = c.val)
    (hc2 : ρ (c.val / 2) = c.val / 2) (h : ∀ t < n, d t = c) (f g : DctEntry) (hf : f = .fwd ∨ f = .fwdn) (hg : g = .inv ∨ g = .inv0) :
    letI := i.arith (Rounded ρ)
    ∃ out : ℕ → Xmm (Rounded ρ), Computes (realDCT (Xmm (Rounded ρ)) thr) n [(f, x), (g, x)] w x n out ∧ ∀ t < n, (out t 0).val = c.val := by
  letI := i.arith (Rounded ρ)
  have hn' : n = 2 * 2 ^ k := by rw [hn, pow_succ]; ring
  have hm := validLen_pow k h1 (by omega)
  have hb := Nat.pow_le_pow_right (n := 2) (by norm_num) hk
  norm_num at hb
  refine ⟨_, ComputesIn.toComputes (DCT.computes (thr := thr) hx.wf (.inr ⟨2 ^ k, hn', hm, by omega⟩) (by omega) hx.arr [f, g])
    (Set.empty_subset _) (fun _ _ => rfl), fun t ht => ?_⟩
  subst hn'
  have hf' : f ∈ [DctEntry.fwd, .fwd0, .fwdn] ∧ f ≠ .fwd0 := by rcases hf with rfl | rfl <;> simp
  have key := dct_constant hρ i thr h1 hk hc h hf'.1
  rw [List.foldl_cons, List.foldl_cons, List.foldl_nil, dct_dc hρ hodd hh i thr h1 hk hc hc2 ?_ ?_ hg t ht]
  · rfl
  · rw [key 0 (by omega), if_pos rfl, if_neg hf'.2]
    rfl
  · intro s hs h0
    rw [key s hs, if_neg h0]
    exact Nat.cast_zero

end

/-! ### Examples -/

omit [Libm] in
theorem rnd64_int {k : ℤ} (hk : |k| ≤ 2 ^ 53) : rnd64 k = k := by
  have := rnd64_repr (k := k) (e := 0) hk (by norm_num)
  simpa using this

omit [Libm] in
theorem rnd64_int2 {k : ℤ} (hk : |k| ≤ 2 ^ 53) : rnd64 (k / 2) = k / 2 := by
  have := rnd64_repr (k := k) (e := -1) hk (by norm_num)
  rw [zpow_neg_one] at this
  exact this

/-- length 12: the impulse 7 -/
example (thr : Thr) : letI := avxBuild.arith (Rounded rnd64)
    ∃ out : ℕ → Xmm (Rounded rnd64), Computes (realFFT (Xmm (Rounded rnd64)) thr) 12 [(.fwd0, Ptr.base 1, Ptr.base 2)]
      (twoArrays 12 (doubles fun t => if t = 0 then ⟨7⟩ else ⟨0⟩)) (Ptr.base 2) 12 out ∧ (out 5 0).val = 7 := by
  obtain ⟨out, h, a⟩ := C72_impulse rnd64_keeps avxBuild thr (realLen_of_le (m := 6) (by omega) (by omega))
    (twoArrays_ok 12 _).wf (twoArrays_ok 12 (doubles fun t => if t = 0 then ⟨7⟩ else ⟨0⟩)).arr (y := Ptr.base 2)
    (fun i hi => by simp [twoArrays, Ptr.base, Ptr.loc, hi]) (Sep.of_buf (by simp [Ptr.base]) _ _)
    (by have := rnd64_int (k := 7) (by norm_num); simpa using this) (fun t _ h => by simp [h])
  exact ⟨out, h, (a 5 (by omega)).1⟩

/-- length 16: the constant 3 and its inverse -/
example (thr : Thr) : letI := avxBuild.arith (Rounded rnd64)
    ∃ out : ℕ → Xmm (Rounded rnd64), Computes (realFFT (Xmm (Rounded rnd64)) thr) 16 [(.fwd0, Ptr.base 1, Ptr.base 2)]
      (twoArrays 16 (doubles fun _ => ⟨3⟩)) (Ptr.base 2) 16 out ∧ (out 0 0).val = 48 ∧ (out 7 1).val = 0 := by
  obtain ⟨out, h, a, -, b⟩ := C72_constant rnd64_keeps avxBuild thr (k := 3) (n := 16) (by norm_num) (by omega) (by omega)
    (twoArrays_ok 16 _).wf (twoArrays_ok 16 (doubles fun _ => ⟨3⟩)).arr (y := Ptr.base 2)
    (fun i hi => by simp [twoArrays, Ptr.base, Ptr.loc, hi]) (Sep.of_buf (by simp [Ptr.base]) _ _) (c := ⟨3⟩)
    (by have := rnd64_int (k := 3) (by norm_num); simpa using this) (fun _ _ => rfl) .fwd0 (by simp)
  refine ⟨out, h, ?_, (b 7 (by omega) (by omega)).2⟩
  rw [a, if_pos rfl]
  norm_num

/-- length 16: the inverse of a spectrum with 5 in element 0 -/
example (thr : Thr) : letI := sse2Build.arith (Rounded rnd64)
    ∃ out : ℕ → Xmm (Rounded rnd64), ComputesIn (realFFT (Xmm (Rounded rnd64)) thr) 16 [(.inv, Ptr.base 1, Ptr.base 2)]
      (twoArrays 16 fun t => if t = 0 then ![⟨5⟩, ⟨0⟩] else ![⟨0⟩, ⟨0⟩]) (Region (Ptr.base 1) 16 ∪ Region (Ptr.base 2) 16) (Ptr.base 2) 16 out ∧
      (out 9 0).val = 5 := by
  obtain ⟨out, h, a⟩ := C72_inverse rnd64_keeps rnd64_neg
    (by have := rnd64_int2 (k := 1) (by norm_num); simpa using this) sse2Build thr (k := 3) (n := 16) (by norm_num) (by omega) (by omega)
    (twoArrays_ok 16 _).wf (twoArrays_ok 16 fun t => if t = 0 then ![⟨5⟩, ⟨0⟩] else ![⟨0⟩, ⟨0⟩]).arr (y := Ptr.base 2)
    (fun i hi => by simp [twoArrays, Ptr.base, Ptr.loc, hi]) (Sep.of_buf (by simp [Ptr.base]) _ _) (c := ⟨5⟩)
    (by have := rnd64_int (k := 5) (by norm_num); simpa using this) (by have := rnd64_int2 (k := 5) (by norm_num); simpa using this)
    ⟨rfl, rfl⟩ (fun t _ h => by simp [h]) .inv (.inl rfl)
  exact ⟨out, h, a 9 (by omega)⟩

/-- length 8: the DCT-II of the constant 3, and the round trip -/
example (thr : Thr) : letI := sse2Build.arith (Rounded rnd64)
    (∃ out : ℕ → Xmm (Rounded rnd64), Computes (realDCT (Xmm (Rounded rnd64)) thr) 8 [(.fwd0, Ptr.base 1)]
      (oneArray 8 (doubles fun _ => ⟨3⟩)) (Ptr.base 1) 8 out ∧ (out 0 0).val = 24 ∧ (out 5 0).val = 0) ∧
    ∃ out : ℕ → Xmm (Rounded rnd64), Computes (realDCT (Xmm (Rounded rnd64)) thr) 8 [(.fwd, Ptr.base 1), (.inv, Ptr.base 1)]
      (oneArray 8 (doubles fun _ => ⟨3⟩)) (Ptr.base 1) 8 out ∧ (out 5 0).val = 3 := by
  constructor
  · obtain ⟨out, h, a, b⟩ := C73_constant rnd64_keeps sse2Build thr (k := 2) (n := 8) (by norm_num) (by omega) (by omega)
      (oneArray_ok 8 (doubles fun _ => ⟨3⟩)) (c := ⟨3⟩)
      (by have := rnd64_int (k := 3) (by norm_num); simpa using this) (fun _ _ => rfl) .fwd0 (by simp)
    refine ⟨out, h, ?_, b 5 (by omega) (by omega)⟩
    rw [a, if_pos rfl]
    norm_num
  · obtain ⟨out, h, a⟩ := C73_round_trip rnd64_keeps rnd64_neg
      (by have := rnd64_int2 (k := 1) (by norm_num); simpa using this) sse2Build thr (k := 2) (n := 8) (by norm_num) (by omega) (by omega)
      (oneArray_ok 8 (doubles fun _ => ⟨3⟩)) (c := ⟨3⟩)
      (by have := rnd64_int (k := 3) (by norm_num); simpa using this) (by have := rnd64_int2 (k := 3) (by norm_num); simpa using this)
      (fun _ _ => rfl) .fwd .inv (.inl rfl) (.inl rfl)
    exact ⟨out, h, a 5 (by omega)⟩

end OTFFT.Props
