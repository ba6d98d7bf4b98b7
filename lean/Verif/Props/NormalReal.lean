/-
C74: the normalised real and cosine transforms are the unnormalised ones times the factor, exactly.
-/
import Verif.Props.RealImpulse

namespace OTFFT.Props

/-! ### all lengths, any arithmetic -/

section
variable {F : Type} [FArith F] [Inhabited F] {w w' : World (Xmm F)} {n : ℕ} {x y x' y' : Ptr}

theorem rfft_rsc (i : Target) (thr : Thr) (hn : RealLen n) (h1 : n ≠ 1) (v : ℕ → Xmm F) {e : Entry} {f g : F} (hi : e.isInv = false)
    (hf : ∀ d : F, rsc0 F e.mode n d = fdiv d g)
    (hg : letI := i.arith F; ∀ z : Xmm F, rsc e.mode n z = scl f z) :
    letI := i.arith F
    (rfftOut (Xmm F) thr e n v 0 0 = fdiv (rfftOut (Xmm F) thr .fwd0 n v 0 0) g ∧
      rfftOut (Xmm F) thr e n v (n / 2) 0 = fdiv (rfftOut (Xmm F) thr .fwd0 n v (n / 2) 0) g) ∧
    ∀ t, 0 < t → 2 * t < n → rfftOut (Xmm F) thr e n v t 0 = fmul f (rfftOut (Xmm F) thr .fwd0 n v t 0) ∧
      rfftOut (Xmm F) thr e n v t 1 = fmul f (rfftOut (Xmm F) thr .fwd0 n v t 1) := by
  letI := i.arith F
  rcases hn with rfl | ⟨m, rfl, hm, -⟩
  · omega
  have h2 := hm.two
  have e1 : ∀ t, rfftOut (Xmm F) thr e (2 * m) v t = rfftPostOut (Xmm F) e.mode m (rfftTab (Xmm F) (2 * m))
      (fftOut (Xmm F) thr false .scale_1 m (rfftZin (Xmm F) v)) t := fun t => by
    rw [rfftOut, if_neg (by omega), hi, show 2 * m / 2 = m by omega]
    rfl
  have e2 : ∀ t, rfftOut (Xmm F) thr .fwd0 (2 * m) v t = rfftPostOut (Xmm F) .scale_1 m (rfftTab (Xmm F) (2 * m))
      (fftOut (Xmm F) thr false .scale_1 m (rfftZin (Xmm F) v)) t := fun t => by
    rw [rfftOut, if_neg (by omega), show 2 * m / 2 = m by omega]
    rfl
  simp only [e1, e2, show 2 * m / 2 = m by omega]
  generalize fftOut (Xmm F) thr false .scale_1 m (rfftZin (Xmm F) v) = W
  generalize rfftTab (Xmm F) (2 * m) = U
  refine ⟨⟨?_, ?_⟩, fun t h0 ht => ?_⟩
  · unfold rfftPostOut
    rw [if_pos rfl, if_pos rfl]
    show rsc0 F e.mode (2 * m) _ = fdiv _ g
    rw [hf]
    rfl
  · unfold rfftPostOut
    rw [if_neg (by omega), if_neg (by omega), if_pos rfl, if_neg (by omega), if_neg (by omega), if_pos rfl]
    show rsc0 F e.mode (2 * m) _ = fdiv _ g
    rw [hf]
    rfl
  · have key : rfftMid e.mode m U W t = scl f (rfftMid .scale_1 m U W t) := by
      unfold rfftMid
      rw [hg, hg]
      split <;> rfl
    unfold rfftPostOut
    rw [if_neg (by omega), if_pos (by omega), if_neg (by omega), if_pos (by omega), key, scl_arith i]
    exact ⟨rfl, rfl⟩

/-- C74: for every length and in any arithmetic, the normalised forward real transform divides the elements 0 and `n/2` of
the unnormalised one by the rounded `n` (or `√n`) and multiplies the others by the rounded `1/n` (or `1/√n`). -/
theorem C74_forward (i : Target) (thr : Thr) (hn : RealLen n) (h1 : n ≠ 1) {d : ℕ → F} (wf : w.WF) (hx : Arr w.heap x n (doubles d))
    (hy : Alloc w.heap y n) (hxy : Sep x n y n) (wf' : w'.WF) (hx' : Arr w'.heap x' n (doubles d)) (hy' : Alloc w'.heap y' n)
    (hxy' : Sep x' n y' n) (e : Entry) (f g : F)
    (he : (e, f, g) ∈ [(Entry.fwd, fdiv (fofNat 1) (fofNat n), fofNat n), (.fwdn, fdiv (fofNat 1) (fofNat n), fofNat n),
      (.fwdu, fdiv (fofNat 1) (fsqrt (fofNat n)), fsqrt (fofNat n))]) :
    letI := i.arith F
    ∃ out out' : ℕ → Xmm F, Computes (realFFT (Xmm F) thr) n [(.fwd0, x, y)] w y n out ∧
      Computes (realFFT (Xmm F) thr) n [(e, x', y')] w' y' n out' ∧
      (out' 0 0 = fdiv (out 0 0) g ∧ out' (n / 2) 0 = fdiv (out (n / 2) 0) g) ∧
      ∀ t, 0 < t → 2 * t < n → out' t 0 = fmul f (out t 0) ∧ out' t 1 = fmul f (out t 1) := by
  letI := i.arith F
  have hi : e.isInv = false := by
    simp only [List.mem_cons, Prod.mk.injEq, List.not_mem_nil, or_false] at he
    rcases he with ⟨rfl, -⟩ | ⟨rfl, -⟩ | ⟨rfl, -⟩ <;> rfl
  have a : RealArgs w .fwd0 n x y (doubles d) := ⟨wf, hn, hx, hx.alloc, hy, hxy⟩
  have a' : RealArgs w' e n x' y' (doubles d) := ⟨wf', hn, by rw [rfftNeed, hi]; exact hx', hx'.alloc, hy', hxy'⟩
  refine ⟨_, _, ComputesIn.toComputes (RFFT.computes (thr := thr) a) (le_refl _) (fun _ _ => rfl),
    ComputesIn.toComputes (RFFT.computes (thr := thr) a') (by rw [rfftDirty, hi]; exact le_refl _) (fun _ _ => rfl), ?_⟩
  refine rfft_rsc i thr hn h1 _ hi ?_ ?_
  all_goals
    simp only [List.mem_cons, Prod.mk.injEq, List.not_mem_nil, or_false] at he
    rcases he with ⟨rfl, rfl, rfl⟩ | ⟨rfl, rfl, rfl⟩ | ⟨rfl, rfl, rfl⟩ <;> intro d <;> rfl

end

/-! ### powers of two -/

variable [Libm]

section
variable {ρ : ℝ → ℝ} {n : ℕ}

omit [Libm] in
theorem ScalesBy.pow (h : ScalesBy ρ 2) (k : ℕ) : ScalesBy ρ (2 ^ k) where
  odd := h.odd
  idem := h.idem
  one := h.one
  div x := by
    induction k with
    | zero => simp
    | succ k ih =>
      have e : ∀ z : ℝ, z / ((2 ^ (k + 1) : ℕ) : ℝ) = z / ((2 ^ k : ℕ) : ℝ) / ((2:ℕ):ℝ) := fun z => by
        rw [div_div, pow_succ]; push_cast; ring
      rw [e, e, h.div, ih]

omit [Libm] in
theorem ScalesBy.two (h : ScalesBy ρ 2) (x : ℝ) : ρ (2 * x) = 2 * ρ x := by
  have := h.div (2 * x)
  push_cast at this
  rw [mul_div_cancel_left₀ _ (by norm_num : (2:ℝ) ≠ 0)] at this
  rw [this]
  ring

omit [Libm] in
theorem ScalesBy.zero {n : ℕ} (h : ScalesBy ρ n) : ρ 0 = 0 := by
  have := h.odd 0
  rw [neg_zero] at this
  linarith

/-- forward -/
theorem rfft_div (hρ : ScalesBy ρ 2) (i : Target) (thr : Thr) {k : ℕ} (h1 : 1 ≤ k) (hk : k + 1 ≤ 30) (v : ℕ → Xmm (Rounded ρ))
    {e : Entry} (he : e = .fwd ∨ e = .fwdn) :
    letI := i.arith (Rounded ρ)
    ∀ t < 2 ^ (k + 1), (rfftOut (Xmm (Rounded ρ)) thr e (2 ^ (k + 1)) v t 0).val = (rfftOut (Xmm (Rounded ρ)) thr .fwd0 (2 ^ (k + 1)) v t 0).val / (2 ^ (k + 1) : ℕ) ∧
      (rfftOut (Xmm (Rounded ρ)) thr e (2 ^ (k + 1)) v t 1).val = (rfftOut (Xmm (Rounded ρ)) thr .fwd0 (2 ^ (k + 1)) v t 1).val / (2 ^ (k + 1) : ℕ) := by
  letI := i.arith (Rounded ρ)
  intro t ht
  have hS := hρ.pow (k + 1)
  have z : (fofNat 0 : Rounded ρ).val = 0 := Nat.cast_zero
  have ei : e.isInv = false ∧ e.mode = .scale_length := by rcases he with rfl | rfl <;> exact ⟨rfl, rfl⟩
  have hm : 2 ≤ 2 ^ k := Nat.le_self_pow (by omega) 2
  generalize hN : 2 ^ (k + 1) = N at *
  have hN2 : N = 2 * 2 ^ k := by rw [← hN, pow_succ]; ring
  generalize 2 ^ k = m at hm hN2
  subst hN2
  have hden : ∀ f : Entry, f.isInv = false → rfftOut (Xmm (Rounded ρ)) thr f (2 * m) v t = rfftPostOut (Xmm (Rounded ρ)) f.mode m (rfftTab (Xmm (Rounded ρ)) (2 * m))
      (fftOut (Xmm (Rounded ρ)) thr false .scale_1 m (rfftZin (Xmm (Rounded ρ)) v)) t := fun f hf => by
    rw [rfftOut, if_neg (by omega), hf, show 2 * m / 2 = m by omega]
    rfl
  rw [hden e ei.1, hden .fwd0 rfl, ei.2]
  show _ = (rfftPostOut (Xmm (Rounded ρ)) .scale_1 m _ _ t 0).val / _ ∧ _ = (rfftPostOut (Xmm (Rounded ρ)) .scale_1 m _ _ t 1).val / _
  generalize fftOut (Xmm (Rounded ρ)) thr false .scale_1 m (rfftZin (Xmm (Rounded ρ)) v) = W
  generalize rfftTab (Xmm (Rounded ρ)) (2 * m) = U
  have hdiv : ∀ q : Rounded ρ, ρ q.val = q.val → (rsc0 (Rounded ρ) .scale_length (2 * m) q).val = q.val / (2 * m : ℕ) := fun q hq =>
    (hS.div q.val).trans (by rw [hq])
  have hscl : ∀ q : Xmm (Rounded ρ), ρ (q 0).val = (q 0).val → ρ (q 1).val = (q 1).val →
      (rsc .scale_length (2 * m) q 0).val = (q 0).val / (2 * m : ℕ) ∧ (rsc .scale_length (2 * m) q 1).val = (q 1).val / (2 * m : ℕ) := fun q h0 h1 => by
    have := scl_of hS i (a := q) (b := q) ⟨⟨rfl, h0⟩, ⟨rfl, h1⟩⟩
    obtain ⟨a, b⟩ := this
    exact ⟨Eq.trans a (by rw [one_div_mul_eq_div]), Eq.trans b (by rw [one_div_mul_eq_div])⟩
  have hneg : ∀ q : Rounded ρ, ρ q.val = q.val → ρ (fneg q).val = (fneg q).val := fun q hq => by
    show ρ (-q.val) = -q.val
    rw [hS.odd, hq]
  have hmid : ∀ t, (rfftMid .scale_length m U W t 0).val = (rfftMid .scale_1 m U W t 0).val / (2 * m : ℕ) ∧
      (rfftMid .scale_length m U W t 1).val = (rfftMid .scale_1 m U W t 1).val / (2 * m : ℕ) := by
    intro t
    unfold rfftMid
    split
    · refine hscl _ ?_ ?_ <;> (rw [subpz_arith i]; exact hS.idem _)
    · refine hscl _ ?_ ?_ <;> (rw [cnjpz_arith i, addpz_arith i])
      · exact hS.idem _
      · exact hneg _ (hS.idem _)
  have z0 : (fofNat 0 : Rounded ρ).val = (fofNat 0 : Rounded ρ).val / (2 * m : ℕ) := by rw [z, zero_div]
  unfold rfftPostOut
  by_cases c0 : t = 0
  · simp only [if_pos c0]
    exact ⟨hdiv _ (hS.idem _), z0⟩
  by_cases c1 : t < m
  · simp only [if_neg c0, if_pos c1]
    exact hmid t
  by_cases c2 : t = m
  · simp only [if_neg c0, if_neg c1, if_pos c2]
    exact ⟨hdiv _ (hS.idem _), z0⟩
  · simp only [if_neg c0, if_neg c1, if_neg c2]
    obtain ⟨a, b⟩ := hmid (2 * m - t)
    rw [cnjpz_arith i, cnjpz_arith i]
    refine ⟨a, ?_⟩
    show -(rfftMid .scale_length m U W (2 * m - t) 1).val = -(rfftMid .scale_1 m U W (2 * m - t) 1).val / _
    rw [b, neg_div]

/-- inverse -/
theorem rfft_inv_div (hρ : ScalesBy ρ 2) (i : Target) (thr : Thr) {k : ℕ} (h1 : 1 ≤ k) (hk : k + 1 ≤ 30) (v : ℕ → Xmm (Rounded ρ))
    {e : Entry} (he : e = .inv ∨ e = .inv0) :
    letI := i.arith (Rounded ρ)
    ∀ t < 2 ^ (k + 1), (rfftOut (Xmm (Rounded ρ)) thr .invn (2 ^ (k + 1)) v t 0).val = (rfftOut (Xmm (Rounded ρ)) thr e (2 ^ (k + 1)) v t 0).val / (2 ^ (k + 1) : ℕ) ∧
      (rfftOut (Xmm (Rounded ρ)) thr .invn (2 ^ (k + 1)) v t 1).val = (rfftOut (Xmm (Rounded ρ)) thr e (2 ^ (k + 1)) v t 1).val / (2 ^ (k + 1) : ℕ) := by
  letI := i.arith (Rounded ρ)
  intro t ht
  have hS := hρ.pow k
  have z : (fofNat 0 : Rounded ρ).val = 0 := Nat.cast_zero
  have ei : e.isInv = true ∧ e.mode = .scale_1 := by rcases he with rfl | rfl <;> exact ⟨rfl, rfl⟩
  have hm : 2 ≤ 2 ^ k := Nat.le_self_pow (by omega) 2
  have hN2 : 2 ^ (k + 1) = 2 * 2 ^ k := by rw [pow_succ]; ring
  rw [hN2] at ht ⊢
  generalize hM : 2 ^ k = m at *
  have hden : ∀ f : Entry, f.isInv = true → rfftOut (Xmm (Rounded ρ)) thr f (2 * m) v t = unpackD (Xmm (Rounded ρ))
      (fftOut (Xmm (Rounded ρ)) thr true (rfftInvMode f.mode) m (rfftPreOut f.mode m (rfftTab (Xmm (Rounded ρ)) (2 * m)) v)) t := fun f hf => by
    rw [rfftOut, if_neg (by omega), hf, show 2 * m / 2 = m by omega]
    rfl
  rw [hden e ei.1, hden .invn rfl, ei.2]
  show (unpackD (Xmm (Rounded ρ)) (fftOut (Xmm (Rounded ρ)) thr true .scale_length m (rfftPreOut .scale_length m (rfftTab (Xmm (Rounded ρ)) (2 * m)) v)) t 0).val = _ ∧
    (unpackD (Xmm (Rounded ρ)) (fftOut (Xmm (Rounded ρ)) thr true .scale_length m (rfftPreOut .scale_length m (rfftTab (Xmm (Rounded ρ)) (2 * m)) v)) t 1).val = _
  set p := rfftPreOut .scale_length m (rfftTab (Xmm (Rounded ρ)) (2 * m)) v with hp
  have hrep : ∀ s, ρ (p s 0).val = (p s 0).val ∧ ρ (p s 1).val = (p s 1).val := by
    intro s
    have : p s = cnjpz (subpz (cnjpz (v s)) (mulpz (rfftTab (Xmm (Rounded ρ)) (2 * m) s) (subpz (cnjpz (v s)) (v (m - s))))) := rfl
    rw [this, cnjpz_arith i, subpz_arith i]
    refine ⟨hS.idem _, ?_⟩
    show ρ (-ρ _) = -ρ _
    rw [hS.odd, hS.idem]
  have h2p : ∀ s < m, Both (fun a b : Rounded ρ => b.val = 2 * a.val) (p s) (rfftPreOut .scale_1 m (rfftTab (Xmm (Rounded ρ)) (2 * m)) v s) := by
    intro s _
    have : rfftPreOut .scale_1 m (rfftTab (Xmm (Rounded ρ)) (2 * m)) v s = scl (fofNat 2) (p s) := rfl
    rw [this, scl_arith i]
    have hmul : ∀ q : Rounded ρ, ρ q.val = q.val → (fmul (fofNat 2) q : Rounded ρ).val = 2 * q.val := fun q hq => by
      show ρ (((2:ℕ):ℝ) * q.val) = _
      push_cast
      rw [hρ.two, hq]
    exact ⟨hmul _ (hrep s).1, hmul _ (hrep s).2⟩
  have L := Target.homLaws (pres_of (Rounded.preserved hρ.two)) i (Equiv.refl _) (Equiv.refl _)
  have hhom := L.fftOut_hom (inv := true) (mode := .scale_1) (thr := thr) (n := m) (u := p) h2p
  have hdiv := fun s (hs : s < m) => fftOut_div hS i thr hM.symm h1 (v := p) (fun t _ => hrep t) true hs
  have hs : t / 2 < m := by omega
  obtain ⟨a0, a1⟩ := hhom (t / 2) hs
  obtain ⟨b0, b1⟩ := hdiv (t / 2) hs
  have e2 : ∀ q : ℝ, q / (m : ℕ) = 2 * q / (2 * m : ℕ) := fun q => by
    have : (m : ℝ) ≠ 0 := by positivity
    push_cast
    field_simp
  have z0 : (fofNat 0 : Rounded ρ).val = (fofNat 0 : Rounded ρ).val / (2 * m : ℕ) := by rw [z, zero_div]
  unfold unpackD
  show _ = ((if t % 2 = 0 then ofD (Xmm (Rounded ρ)) (CArith.re (fftOut (Xmm (Rounded ρ)) thr true .scale_1 m (rfftPreOut .scale_1 m (rfftTab (Xmm (Rounded ρ)) (2 * m)) v) (t / 2)))
      else ofD (Xmm (Rounded ρ)) (CArith.im (fftOut (Xmm (Rounded ρ)) thr true .scale_1 m (rfftPreOut .scale_1 m (rfftTab (Xmm (Rounded ρ)) (2 * m)) v) (t / 2)))) 0).val / _ ∧
    _ = ((if t % 2 = 0 then ofD (Xmm (Rounded ρ)) (CArith.re (fftOut (Xmm (Rounded ρ)) thr true .scale_1 m (rfftPreOut .scale_1 m (rfftTab (Xmm (Rounded ρ)) (2 * m)) v) (t / 2)))
      else ofD (Xmm (Rounded ρ)) (CArith.im (fftOut (Xmm (Rounded ρ)) thr true .scale_1 m (rfftPreOut .scale_1 m (rfftTab (Xmm (Rounded ρ)) (2 * m)) v) (t / 2)))) 1).val / _
  split
  · refine ⟨?_, z0⟩
    show (fftOut (Xmm (Rounded ρ)) thr true .scale_length m p (t / 2) 0).val = (fftOut (Xmm (Rounded ρ)) thr true .scale_1 m (rfftPreOut .scale_1 m (rfftTab (Xmm (Rounded ρ)) (2 * m)) v) (t / 2) 0).val / _
    rw [b0, e2]
    exact congrArg (· / _) a0.symm
  · refine ⟨?_, z0⟩
    show (fftOut (Xmm (Rounded ρ)) thr true .scale_length m p (t / 2) 1).val = (fftOut (Xmm (Rounded ρ)) thr true .scale_1 m (rfftPreOut .scale_1 m (rfftTab (Xmm (Rounded ρ)) (2 * m)) v) (t / 2) 1).val / _
    rw [b1, e2]
    exact congrArg (· / _) a1.symm

omit [Libm] in
/-- more cells may change -/
theorem widen {C : Type} {w : World C} {X : Cls C} {n : Int} {cs : List X.Call} {D D' : Set Loc} {out : Ptr} {m : ℕ} {r : ℕ → C}
    (h : (X.lifetime n (cs.map .call)).wp (fun ok w' => w'.live = w.live ∧
      (ok = true → Arr w'.heap out m r ∧ ∀ l, l ∉ Region out m ∪ D → w'.heap l = w.heap l) ∧ (ok = false → w'.heap = w.heap)) w)
    (hD : D ⊆ Region out m ∪ D') :
    (X.lifetime n (cs.map .call)).wp (fun ok w' => w'.live = w.live ∧
      (ok = true → Arr w'.heap out m r ∧ ∀ l, l ∉ Region out m ∪ D' → w'.heap l = w.heap l) ∧ (ok = false → w'.heap = w.heap)) w := by
  refine Act.wp_mono h ?_
  rintro ok w' ⟨a, b, c⟩
  exact ⟨a, fun hok => ⟨(b hok).1, fun l hl => (b hok).2 l fun h => hl (h.elim .inl fun h => hD h)⟩, c⟩

omit [Libm] in
theorem realLen_pow {k : ℕ} (h1 : 1 ≤ k) (hk : k + 1 ≤ 30) : RealLen (2 ^ (k + 1)) :=
  .inr ⟨2 ^ k, by rw [pow_succ]; ring, validLen_pow k h1 (by omega), Nat.pow_lt_pow_right (by norm_num) (by omega)⟩

/-- the cosine transforms -/
theorem dct_div (hρ : ScalesBy ρ 2) (i : Target) (thr : Thr) {k : ℕ} (h1 : 1 ≤ k) (hk : k + 1 ≤ 30) (v : ℕ → Xmm (Rounded ρ))
    {e e' : DctEntry} (he : (e, e') ∈ [(DctEntry.fwd0, DctEntry.fwd), (.fwd0, .fwdn), (.inv, .invn), (.inv0, .invn)]) :
    letI := i.arith (Rounded ρ)
    ∀ t < 2 ^ (k + 1), (dctOut (Xmm (Rounded ρ)) thr e' (2 ^ (k + 1)) v t 0).val = (dctOut (Xmm (Rounded ρ)) thr e (2 ^ (k + 1)) v t 0).val / (2 ^ (k + 1) : ℕ) := by
  letI := i.arith (Rounded ρ)
  have hS := hρ.pow (k + 1)
  have hne : 2 ^ (k + 1) ≠ 1 := by
    have : 2 ≤ 2 ^ (k + 1) := Nat.le_self_pow (by omega) 2
    omega
  have hfwd : ∀ f f' : DctEntry, f.isInv = false → f'.isInv = false → f.real = .fwd0 → f'.real = .fwd → ∀ t < 2 ^ (k + 1),
      (dctOut (Xmm (Rounded ρ)) thr f' (2 ^ (k + 1)) v t 0).val = (dctOut (Xmm (Rounded ρ)) thr f (2 ^ (k + 1)) v t 0).val / (2 ^ (k + 1) : ℕ) := by
    intro f f' hf hf' hr hr' t ht
    rw [dctOut, dctOut, if_neg hne, if_neg hne, hf, hf', hr, hr']
    simp only [Bool.false_eq_true, if_false]
    rw [dctTw_eq i, dctTw_eq i]
    obtain ⟨a, b⟩ := rfft_div hρ i thr h1 hk (dctGath (2 ^ (k + 1) / 2) v) (e := .fwd) (.inl rfl) t ht
    generalize rfftOut (Xmm (Rounded ρ)) thr .fwd (2 ^ (k + 1)) (dctGath (2 ^ (k + 1) / 2) v) t = P at a b
    generalize rfftOut (Xmm (Rounded ρ)) thr .fwd0 (2 ^ (k + 1)) (dctGath (2 ^ (k + 1) / 2) v) t = Q at a b
    generalize dctTab (Xmm (Rounded ρ)) (2 ^ (k + 1)) t = V
    show ρ (ρ ((V 0).val * (P 0).val) + ρ ((V 1).val * (P 1).val)) = ρ (ρ ((V 0).val * (Q 0).val) + ρ ((V 1).val * (Q 1).val)) / _
    rw [a, b, ← mul_div_assoc, ← mul_div_assoc, hS.div, hS.div, ← add_div, hS.div]
  have hinv : ∀ f f' : DctEntry, f.isInv = true → f'.isInv = true → f.real = .inv → f'.real = .invn → ∀ t < 2 ^ (k + 1),
      (dctOut (Xmm (Rounded ρ)) thr f' (2 ^ (k + 1)) v t 0).val = (dctOut (Xmm (Rounded ρ)) thr f (2 ^ (k + 1)) v t 0).val / (2 ^ (k + 1) : ℕ) := by
    intro f f' hf hf' hr hr' t ht
    rw [dctOut, dctOut, if_neg hne, if_neg hne, hf, hf', hr, hr']
    simp only [if_true]
    have key := rfft_inv_div hρ i thr h1 hk (dctPreV (Xmm (Rounded ρ)) (2 ^ (k + 1)) (dctTab (Xmm (Rounded ρ)) (2 ^ (k + 1))) v) (e := .inv) (.inl rfl)
    have e2 : 2 ^ (k + 1) / 2 = 2 ^ k := by rw [pow_succ]; omega
    have e3 : 2 ^ (k + 1) = 2 * 2 ^ k := by rw [pow_succ]; ring
    unfold dctScat
    rw [e2]
    split
    · exact (key _ (by omega)).1
    · exact (key _ (by omega)).1
  simp only [List.mem_cons, Prod.mk.injEq, List.not_mem_nil, or_false] at he
  rcases he with ⟨rfl, rfl⟩ | ⟨rfl, rfl⟩ | ⟨rfl, rfl⟩ | ⟨rfl, rfl⟩
  · exact hfwd _ _ rfl rfl rfl rfl
  · exact hfwd _ _ rfl rfl rfl rfl
  · exact hinv _ _ rfl rfl rfl rfl
  · exact hinv _ _ rfl rfl rfl rfl

/-- C74: for `n = 2^(k+1)`, `4 ≤ n ≤ 2^30`, every element of the normalised forward or inverse real transform is exactly the
element of the unnormalised one divided by `n`. Any input `v` (doubles for the forward, complex numbers for the inverse transform). -/
theorem C74_real (hρ : ScalesBy ρ 2) (i : Target) (thr : Thr) {k : ℕ} (hn : n = 2 ^ (k + 1)) (h1 : 1 ≤ k) (hk : k + 1 ≤ 30)
    {w w' : World (Xmm (Rounded ρ))} {x y x' y' : Ptr} {v : ℕ → Xmm (Rounded ρ)} (wf : w.WF) (hx : Arr w.heap x n v)
    (hy : Alloc w.heap y n) (hxy : Sep x n y n) (wf' : w'.WF) (hx' : Arr w'.heap x' n v) (hy' : Alloc w'.heap y' n)
    (hxy' : Sep x' n y' n) (e e' : Entry)
    (he : (e, e') ∈ [(Entry.fwd0, Entry.fwd), (.fwd0, .fwdn), (.inv, .invn), (.inv0, .invn)]) :
    letI := i.arith (Rounded ρ)
    ∃ out out' : ℕ → Xmm (Rounded ρ),
      ComputesIn (realFFT (Xmm (Rounded ρ)) thr) n [(e, x, y)] w (if e = .fwd0 then ∅ else Region x n) y n out ∧
      ComputesIn (realFFT (Xmm (Rounded ρ)) thr) n [(e', x', y')] w' (if e = .fwd0 then ∅ else Region x' n) y' n out' ∧
      ∀ t < n, (out' t 0).val = (out t 0).val / n ∧ (out' t 1).val = (out t 1).val / n := by
  letI := i.arith (Rounded ρ)
  have hl : RealLen n := hn ▸ realLen_pow h1 hk
  have hneed : ∀ f, rfftNeed f n ≤ n := fun f => rfftNeed_le hl
  have a : RealArgs w e n x y v := ⟨wf, hl, fun t ht => hx t (lt_of_lt_of_le ht (hneed e)), hx.alloc, hy, hxy⟩
  have a' : RealArgs w' e' n x' y' v := ⟨wf', hl, fun t ht => hx' t (lt_of_lt_of_le ht (hneed e')), hx'.alloc, hy', hxy'⟩
  have sub : ∀ f (p q : Ptr) (hf : f.isInv = true ↔ e ≠ .fwd0), rfftDirty f n p q ⊆ Region q n ∪ (if e = .fwd0 then ∅ else Region p n) := by
    intro f p q hf
    unfold rfftDirty
    by_cases h0 : e = .fwd0
    · have : f.isInv = false := by
        cases hh : f.isInv
        · rfl
        · exact absurd h0 (hf.1 hh)
      rw [this, if_pos h0]
      simp
    · rw [hf.2 h0, if_neg h0, if_pos rfl]
      exact (Set.union_comm _ _).subset
  have hm : (e.isInv = true ↔ e ≠ .fwd0) ∧ (e'.isInv = true ↔ e ≠ .fwd0) := by
    simp only [List.mem_cons, Prod.mk.injEq, List.not_mem_nil, or_false] at he
    rcases he with ⟨rfl, rfl⟩ | ⟨rfl, rfl⟩ | ⟨rfl, rfl⟩ | ⟨rfl, rfl⟩ <;> simp [Entry.isInv]
  refine ⟨_, _, ⟨widen (RFFT.computes (thr := thr) a).1 (sub e x y hm.1), (RFFT.computes (thr := thr) a).2⟩,
    ⟨widen (RFFT.computes (thr := thr) a').1 (sub e' x' y' hm.2), (RFFT.computes (thr := thr) a').2⟩, ?_⟩
  subst hn
  simp only [List.mem_cons, Prod.mk.injEq, List.not_mem_nil, or_false] at he
  rcases he with ⟨rfl, rfl⟩ | ⟨rfl, rfl⟩ | ⟨rfl, rfl⟩ | ⟨rfl, rfl⟩
  · exact rfft_div hρ i thr h1 hk v (.inl rfl)
  · exact rfft_div hρ i thr h1 hk v (.inr rfl)
  · exact rfft_inv_div hρ i thr h1 hk v (.inl rfl)
  · exact rfft_inv_div hρ i thr h1 hk v (.inr rfl)

/-- C74: the same for the cosine transforms, `4 ≤ n ≤ 2^29`. -/
theorem C74_dct (hρ : ScalesBy ρ 2) (i : Target) (thr : Thr) {k : ℕ} (hn : n = 2 ^ (k + 1)) (h1 : 1 ≤ k) (hk : k + 1 ≤ 29)
    {w w' : World (Xmm (Rounded ρ))} {x x' : Ptr} {v : ℕ → Xmm (Rounded ρ)} (hx : UserArray w x n v) (hx' : UserArray w' x' n v)
    (e e' : DctEntry) (he : (e, e') ∈ [(DctEntry.fwd0, DctEntry.fwd), (.fwd0, .fwdn), (.inv, .invn), (.inv0, .invn)]) :
    letI := i.arith (Rounded ρ)
    ∃ out out' : ℕ → Xmm (Rounded ρ), Computes (realDCT (Xmm (Rounded ρ)) thr) n [(e, x)] w x n out ∧
      Computes (realDCT (Xmm (Rounded ρ)) thr) n [(e', x')] w' x' n out' ∧ ∀ t < n, (out' t 0).val = (out t 0).val / n := by
  letI := i.arith (Rounded ρ)
  have hl : RealLen n := hn ▸ realLen_pow h1 (by omega)
  have h30 : n < 2 ^ 30 := hn ▸ Nat.pow_lt_pow_right (by norm_num) (by omega)
  refine ⟨_, _, ComputesIn.toComputes (DCT.computes (thr := thr) hx.wf hl h30 hx.arr [e]) (Set.empty_subset _) (fun _ _ => rfl),
    ComputesIn.toComputes (DCT.computes (thr := thr) hx'.wf hl h30 hx'.arr [e']) (Set.empty_subset _) (fun _ _ => rfl), ?_⟩
  subst hn
  exact dct_div hρ i thr h1 (by omega) v he

end

/-! ### Examples -/

/-- length 2^10: the inverse real transforms of a spectrum -/
example (thr : Thr) (v : ℕ → Xmm (Rounded rnd53)) : letI := avxBuild.arith (Rounded rnd53)
    ∃ out out' : ℕ → Xmm (Rounded rnd53),
      ComputesIn (realFFT (Xmm (Rounded rnd53)) thr) (2 ^ 10) [(.inv, Ptr.base 1, Ptr.base 2)] (twoArrays (2 ^ 10) v) (Region (Ptr.base 1) (2 ^ 10)) (Ptr.base 2) (2 ^ 10) out ∧
      ComputesIn (realFFT (Xmm (Rounded rnd53)) thr) (2 ^ 10) [(.invn, Ptr.base 1, Ptr.base 2)] (twoArrays (2 ^ 10) v) (Region (Ptr.base 1) (2 ^ 10)) (Ptr.base 2) (2 ^ 10) out' ∧
      ∀ t < 2 ^ 10, (out' t 0).val = (out t 0).val / (2 ^ 10 : ℕ) ∧ (out' t 1).val = (out t 1).val / (2 ^ 10 : ℕ) := by
  have ok := twoArrays_ok (2 ^ 10) v
  have hy : Alloc (twoArrays (2 ^ 10) v).heap (Ptr.base 2) (2 ^ 10) := fun i hi => by
    simp only [twoArrays, Ptr.base, Ptr.loc_add, Nat.zero_add, hi]; simp
  exact C74_real (rnd53_scalesBy 1) avxBuild thr (k := 9) (by norm_num) (by norm_num) (by norm_num) ok.wf ok.arr hy
    (Sep.of_buf (by simp [Ptr.base]) _ _) ok.wf ok.arr hy (Sep.of_buf (by simp [Ptr.base]) _ _) .inv .invn (by simp)

/-- length 8: the cosine transforms -/
example (thr : Thr) (d : ℕ → Rounded rnd53) : letI := sse2Build.arith (Rounded rnd53)
    ∃ out out' : ℕ → Xmm (Rounded rnd53),
      Computes (realDCT (Xmm (Rounded rnd53)) thr) 8 [(.fwd0, Ptr.base 1)] (oneArray 8 (doubles d)) (Ptr.base 1) 8 out ∧
      Computes (realDCT (Xmm (Rounded rnd53)) thr) 8 [(.fwd, Ptr.base 1)] (oneArray 8 (doubles d)) (Ptr.base 1) 8 out' ∧
      ∀ t < 8, (out' t 0).val = (out t 0).val / (8 : ℕ) :=
  C74_dct (rnd53_scalesBy 1) sse2Build thr (k := 2) (by norm_num) (by norm_num) (by norm_num) (oneArray_ok 8 _) (oneArray_ok 8 _) _ _ (by simp)

/-- length 12: the forward real transform and the normalised one, IEEE doubles -/
example (thr : Thr) (d : ℕ → Dbl64) : letI := avxBuild.arith Dbl64
    ∃ out out' : ℕ → Xmm Dbl64,
      Computes (realFFT (Xmm Dbl64) thr) 12 [(.fwd0, Ptr.base 1, Ptr.base 2)] (twoArrays 12 (doubles d)) (Ptr.base 2) 12 out ∧
      Computes (realFFT (Xmm Dbl64) thr) 12 [(.fwd, Ptr.base 1, Ptr.base 2)] (twoArrays 12 (doubles d)) (Ptr.base 2) 12 out' ∧
      out' 6 0 = fdiv (out 6 0) (fofNat 12) ∧ out' 5 1 = fmul (fdiv (fofNat 1) (fofNat 12)) (out 5 1) := by
  have ok := twoArrays_ok 12 (doubles d)
  have hy : Alloc (twoArrays 12 (doubles d)).heap (Ptr.base 2) 12 := fun i hi => by
    simp only [twoArrays, Ptr.base, Ptr.loc_add, Nat.zero_add, hi]; simp
  obtain ⟨out, out', h, h', a, b⟩ := C74_forward avxBuild thr (realLen_of_le (m := 6) (by omega) (by omega)) (by norm_num) ok.wf ok.arr hy
    (Sep.of_buf (by simp [Ptr.base]) _ _) ok.wf ok.arr hy (Sep.of_buf (by simp [Ptr.base]) _ _) .fwd _ _ (List.mem_cons_self ..)
  exact ⟨out, out', h, h', a.2, (b 5 (by omega) (by omega)).2⟩

end OTFFT.Props
