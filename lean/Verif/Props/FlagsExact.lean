/-
C81: scaling by powers of two and normalisation are exact where no exception flag was raised.
-/
import Verif.Props.FlagsAccuracy
import Verif.Props.NormalReal

namespace OTFFT.Props

variable [Libm]

omit [Libm] in
theorem quiet_one {a : Dbl64} {b : Flagged} {c : R} (h : b.d = a ∧ (¬ b.raised → ∃ z, a = ⟨.num c.val z⟩)) (hq : ¬ b.raised) :
    b.d.val = c.val := by
  obtain ⟨z, e⟩ := h.2 hq
  rw [h.1, e]
  rfl

/-- C81: multiply the input by a power of two. The parts of the result for which no flag was raised, in neither of the two runs, are
multiplied by exactly this power. (The double of a flagged number is what IEEE arithmetic computes: C79.) -/
theorem C81_scale (i : Target) (thr : Thr) (k : Kind) {n : ℕ} (hn : k.setupOK n) (s : ℤ) :
    letI := i.arith Flagged
    ∀ (w w' : World (Xmm Flagged)) (c c' : (k.cls (Xmm Flagged) thr).Call) (v v' : ℕ → Xmm Dbl64), w.WF → w'.WF →
      k.callOK n c w.heap → k.callOK n c' w'.heap → k.fn c = k.fn c' →
      Arr w.heap (k.input c) (k.need n c) (fun t j => Flagged.input (v t j)) →
      Arr w'.heap (k.input c') (k.need n c') (fun t j => Flagged.input (v' t j)) →
      (∀ t < k.need n c, ∀ j, (v' t j).val = 2 ^ s * (v t j).val) →
      ∃ out out' : ℕ → Xmm Flagged,
        ComputesIn (k.cls (Xmm Flagged) thr) n [c] w (k.writes n c) (k.output c) n out ∧
        ComputesIn (k.cls (Xmm Flagged) thr) n [c'] w' (k.writes n c') (k.output c') n out' ∧
        ∀ t < n, ∀ j, ¬ (out t j).raised → ¬ (out' t j).raised → (out' t j).d.val = 2 ^ s * (out t j).d.val := by
  letI := i.arith Dbl64
  letI := i.arith Flagged
  letI := i.arith R
  intro w w' c c' v v' hw hw' ok ok' hf hv hv' h
  refine ⟨_, _, Kind.computes thr hw hn ok hv, Kind.computes thr hw' hn ok' hv', fun t ht j hq hq' => ?_⟩
  have hl := lenOK_of ok
  have a := quiet_one (flags_out i thr k hl (k.fn c) v _ (fun _ _ => rfl) t ht j) hq
  have a' := quiet_one (flags_out i thr k hl (k.fn c') v' _ (fun _ _ => rfl) t ht j) hq'
  rw [a, a', ← hf]
  rw [need_eq] at h
  have e := out_hom (u := vals v) (v := vals v) (v' := vals v')
    (Target.homLaws (pres_of (Rounded.preserved (s := (2:ℝ) ^ s) (rnd53_scale s))) i (Equiv.refl _) (Equiv.refl _))
    thr k hl (k.fn c) (fun t ht => ⟨h t ht 0, h t ht 1⟩) t ht
  match j with
  | 0 => exact e.1
  | 1 => exact e.2

section
variable {n : ℕ} {w w' : World (Xmm Flagged)} {x x' y y' : Ptr}

/-- C81: ComplexFFT, lengths that are powers of two: the normalised transform is exactly `1/n` times the other one in the parts for
which no flag was raised. -/
theorem C81_complex (i : Target) (thr : Thr) {k : ℕ} (hn : n = 2 ^ k) (h1 : 1 ≤ k) (hk : k ≤ 30) {v : ℕ → Xmm Dbl64}
    (hv : ∀ t < n, ∀ j, (v t j).Finite ∨ (v t j).notFinite) (hx : UserArray w x n fun t j => Flagged.input (v t j))
    (hx' : UserArray w' x' n fun t j => Flagged.input (v t j)) (e e' : Entry)
    (he : (e, e') ∈ [(Entry.fwd0, Entry.fwd), (.fwd0, .fwdn), (.inv, .invn), (.inv0, .invn)]) :
    letI := i.arith Flagged
    ∃ out out' : ℕ → Xmm Flagged, Computes (complexFFT (Xmm Flagged) thr) n [(e, x)] w x n out ∧
      Computes (complexFFT (Xmm Flagged) thr) n [(e', x')] w' x' n out' ∧
      ∀ t < n, ∀ j, ¬ (out t j).raised → ¬ (out' t j).raised → (out' t j).d.val = (out t j).d.val / n := by
  letI := i.arith Dbl64
  letI := i.arith Flagged
  letI := i.arith R
  have hl := hn ▸ validLen_pow k h1 (by omega)
  have h2 := hl.two
  refine ⟨_, _, ⟨FFT.calls (es := [e]) hl hx, FFT.lifetime_noFail _ (by omega) _ (lenNat_calls _)⟩,
    ⟨FFT.calls (es := [e']) hl hx', FFT.lifetime_noFail _ (by omega) _ (lenNat_calls _)⟩, fun t ht j hq hq' => ?_⟩
  have a := quiet_one (flags_out i thr .complex (n := n) trivial e v _ (fun _ _ => rfl) t ht j) hq
  have a' := quiet_one (flags_out i thr .complex (n := n) trivial e' v _ (fun _ _ => rfl) t ht j) hq'
  refine a'.trans (Eq.trans ?_ (congrArg (· / (n:ℝ)) a.symm))
  have hm : e.isInv = e'.isInv ∧ e.mode = .scale_1 ∧ e'.mode = .scale_length := by
    simp only [List.mem_cons, Prod.mk.injEq, List.not_mem_nil, or_false] at he
    rcases he with ⟨rfl, rfl⟩ | ⟨rfl, rfl⟩ | ⟨rfl, rfl⟩ | ⟨rfl, rfl⟩ <;> exact ⟨rfl, rfl, rfl⟩
  show (fftOut (Xmm R) thr e'.isInv e'.mode n (vals v) t j).val = (fftOut (Xmm R) thr e.isInv e.mode n (vals v) t j).val / n
  rw [hm.1, hm.2.1, hm.2.2]
  have hr : ∀ t < n, ∀ j, rnd53 (vals v t j).val = (vals v t j).val := fun t ht j => by
    show rnd53 (v t j).val = (v t j).val
    rcases hv t ht j with ⟨x, z, e, hd⟩ | h
    · have : (v t j).val = x := by unfold Ieee.val; rw [e]
      rw [this, rnd53_double hd]
    · have : (v t j).val = 0 := by
        unfold Ieee.val
        cases hh : (v t j).d with
        | num x z => exact absurd hh (h x z)
        | nan => rfl
        | inf s => rfl
      rw [this, rnd53_zero]
  have := fftOut_div (hn ▸ rnd53_scalesBy k) i thr hn h1 (v := vals v) (fun t ht => ⟨hr t ht 0, hr t ht 1⟩) e'.isInv ht
  match j with
  | 0 => exact this.1
  | 1 => exact this.2

/-- C81: RealDCT, lengths that are powers of two. -/
theorem C81_dct (i : Target) (thr : Thr) {k : ℕ} (hn : n = 2 ^ (k + 1)) (h1 : 1 ≤ k) (hk : k + 1 ≤ 29) {d : ℕ → Dbl64}
    (hx : UserArray w x n (doubles fun t => Flagged.input (d t))) (hx' : UserArray w' x' n (doubles fun t => Flagged.input (d t)))
    (e e' : DctEntry) (he : (e, e') ∈ [(DctEntry.fwd0, DctEntry.fwd), (.fwd0, .fwdn), (.inv, .invn), (.inv0, .invn)]) :
    letI := i.arith Flagged
    ∃ out out' : ℕ → Xmm Flagged, Computes (realDCT (Xmm Flagged) thr) n [(e, x)] w x n out ∧
      Computes (realDCT (Xmm Flagged) thr) n [(e', x')] w' x' n out' ∧
      ∀ t < n, ¬ (out t 0).raised → ¬ (out' t 0).raised → (out' t 0).d.val = (out t 0).d.val / n := by
  letI := i.arith Dbl64
  letI := i.arith Flagged
  letI := i.arith R
  have hl : RealLen n := hn ▸ realLen_pow h1 (by omega)
  have h30 : n < 2 ^ 30 := hn ▸ Nat.pow_lt_pow_right (by norm_num) (by omega)
  refine ⟨_, _, ComputesIn.toComputes (DCT.computes (thr := thr) hx.wf hl h30 hx.arr [e]) (Set.empty_subset _) (fun _ _ => rfl),
    ComputesIn.toComputes (DCT.computes (thr := thr) hx'.wf hl h30 hx'.arr [e']) (Set.empty_subset _) (fun _ _ => rfl), fun t ht hq hq' => ?_⟩
  have a := quiet_one (flags_out i thr .dct (n := n) hl e (doubles d) _ (input_doubles d) t ht 0) hq
  have a' := quiet_one (flags_out i thr .dct (n := n) hl e' (doubles d) _ (input_doubles d) t ht 0) hq'
  refine a'.trans (Eq.trans ?_ (congrArg (· / (n:ℝ)) a.symm))
  subst hn
  exact dct_div (rnd53_scalesBy 1) i thr h1 (by omega) (vals (doubles d)) he t ht

/-- C81: RealFFT, lengths that are powers of two. -/
theorem C81_real (i : Target) (thr : Thr) {k : ℕ} (hn : n = 2 ^ (k + 1)) (h1 : 1 ≤ k) (hk : k + 1 ≤ 30) {v : ℕ → Xmm Dbl64}
    (wf : w.WF) (hx : Arr w.heap x n fun t j => Flagged.input (v t j)) (hy : Alloc w.heap y n) (hxy : Sep x n y n)
    (wf' : w'.WF) (hx' : Arr w'.heap x' n fun t j => Flagged.input (v t j)) (hy' : Alloc w'.heap y' n) (hxy' : Sep x' n y' n)
    (e e' : Entry) (he : (e, e') ∈ [(Entry.fwd0, Entry.fwd), (.fwd0, .fwdn), (.inv, .invn), (.inv0, .invn)]) :
    letI := i.arith Flagged
    ∃ out out' : ℕ → Xmm Flagged,
      ComputesIn (realFFT (Xmm Flagged) thr) n [(e, x, y)] w (if e = .fwd0 then ∅ else Region x n) y n out ∧
      ComputesIn (realFFT (Xmm Flagged) thr) n [(e', x', y')] w' (if e = .fwd0 then ∅ else Region x' n) y' n out' ∧
      ∀ t < n, ∀ j, ¬ (out t j).raised → ¬ (out' t j).raised → (out' t j).d.val = (out t j).d.val / n := by
  letI := i.arith Dbl64
  letI := i.arith Flagged
  letI := i.arith R
  have hl : RealLen n := hn ▸ realLen_pow h1 hk
  have hneed : ∀ f, rfftNeed f n ≤ n := fun f => rfftNeed_le hl
  have a : RealArgs w e n x y (fun t j => Flagged.input (v t j)) := ⟨wf, hl, fun t ht => hx t (lt_of_lt_of_le ht (hneed e)), hx.alloc, hy, hxy⟩
  have a' : RealArgs w' e' n x' y' (fun t j => Flagged.input (v t j)) :=
    ⟨wf', hl, fun t ht => hx' t (lt_of_lt_of_le ht (hneed e')), hx'.alloc, hy', hxy'⟩
  have sub : ∀ f (p q : Ptr) (_ : f.isInv = true ↔ e ≠ .fwd0), rfftDirty f n p q ⊆ Region q n ∪ (if e = .fwd0 then ∅ else Region p n) := by
    intro f p q hf
    unfold rfftDirty
    by_cases h0 : e = .fwd0
    · have : f.isInv = false := by
        cases hh : f.isInv
        · rfl
        · exact absurd h0 (hf.1 hh)
      rw [this, if_pos h0]
      simp
    · rw [hf.2 h0, if_neg h0, if_pos rfl]
      exact Set.union_comm _ _ ▸ subset_rfl
  have hi : (e.isInv = true ↔ e ≠ .fwd0) ∧ (e'.isInv = true ↔ e ≠ .fwd0) := by
    simp only [List.mem_cons, Prod.mk.injEq, List.not_mem_nil, or_false] at he
    rcases he with ⟨rfl, rfl⟩ | ⟨rfl, rfl⟩ | ⟨rfl, rfl⟩ | ⟨rfl, rfl⟩ <;> decide
  refine ⟨_, _, ⟨widen (RFFT.computes (thr := thr) a).1 (sub e x y hi.1), (RFFT.computes (thr := thr) a).2⟩,
    ⟨widen (RFFT.computes (thr := thr) a').1 (sub e' x' y' hi.2), (RFFT.computes (thr := thr) a').2⟩, fun t ht j hq hq' => ?_⟩
  have b := quiet_one (flags_out i thr .real (n := n) hl e v _ (fun _ _ => rfl) t ht j) hq
  have b' := quiet_one (flags_out i thr .real (n := n) hl e' v _ (fun _ _ => rfl) t ht j) hq'
  refine b'.trans (Eq.trans ?_ (congrArg (· / (n:ℝ)) b.symm))
  have key : (rfftOut (Xmm R) thr e' n (vals v) t 0).val = (rfftOut (Xmm R) thr e n (vals v) t 0).val / n ∧
      (rfftOut (Xmm R) thr e' n (vals v) t 1).val = (rfftOut (Xmm R) thr e n (vals v) t 1).val / n := by
    subst hn
    simp only [List.mem_cons, Prod.mk.injEq, List.not_mem_nil, or_false] at he
    rcases he with ⟨rfl, rfl⟩ | ⟨rfl, rfl⟩ | ⟨rfl, rfl⟩ | ⟨rfl, rfl⟩
    · exact rfft_div (rnd53_scalesBy 1) i thr h1 hk (vals v) (.inl rfl) t ht
    · exact rfft_div (rnd53_scalesBy 1) i thr h1 hk (vals v) (.inr rfl) t ht
    · exact rfft_inv_div (rnd53_scalesBy 1) i thr h1 hk (vals v) (.inl rfl) t ht
    · exact rfft_inv_div (rnd53_scalesBy 1) i thr h1 hk (vals v) (.inr rfl) t ht
  match j with
  | 0 => exact key.1
  | 1 => exact key.2

end

/-! ### Examples -/

/-- samples of size `2^1021`, and half of them: both results are free of flags -/
example (i : Target) (thr : Thr) : letI := i.arith Flagged
    ∃ out out' : ℕ → Xmm Flagged,
      ComputesIn (complexFFT (Xmm Flagged) thr) 3 [(.fwd0, Ptr.base 1)]
        (oneArray 3 fun _ j => Flagged.input ((![⟨.num (2 ^ 1021) false⟩, ⟨.num 0 false⟩] : Xmm Dbl64) j)) (Region (Ptr.base 1) 3) (Ptr.base 1) 3 out ∧
      ComputesIn (complexFFT (Xmm Flagged) thr) 3 [(.fwd0, Ptr.base 1)]
        (oneArray 3 fun _ j => Flagged.input ((![⟨.num (2 ^ 1020) false⟩, ⟨.num 0 false⟩] : Xmm Dbl64) j)) (Region (Ptr.base 1) 3) (Ptr.base 1) 3 out' ∧
      ¬ (out 0 0).raised ∧ ¬ (out' 0 0).raised ∧ (out' 0 0).d.val = 2 ^ (-1:ℤ) * (out 0 0).d.val := by
  letI := i.arith Flagged
  have h3 : ValidLen 3 := validLen_of_le (by omega) (by omega)
  set v : ℕ → Xmm Dbl64 := fun _ => ![⟨.num (2 ^ 1021) false⟩, ⟨.num 0 false⟩] with hv
  set v' : ℕ → Xmm Dbl64 := fun _ => ![⟨.num (2 ^ 1020) false⟩, ⟨.num 0 false⟩] with hv'
  have a := oneArray_ok 3 fun t j => Flagged.input (v t j)
  have a' := oneArray_ok 3 fun t j => Flagged.input (v' t j)
  obtain ⟨out, out', h, h', e⟩ := C81_scale i thr .complex (n := 3) (show intLen (3 : ℕ) from ⟨by norm_num, by norm_num⟩) (-1) _ _ (Entry.fwd0, Ptr.base 1) (Entry.fwd0, Ptr.base 1) v v'
    a.wf a'.wf ⟨h3, a.arr.filled⟩ ⟨h3, a'.arr.filled⟩ rfl a.arr a'.arr (fun t _ j => by
      match j with
      | 0 => show (2:ℝ) ^ 1020 = 2 ^ (-1:ℤ) * 2 ^ 1021
             rw [pow_succ (2:ℝ) 1020, zpow_neg_one]; ring
      | 1 => show (0:ℝ) = 2 ^ (-1:ℤ) * 0
             rw [mul_zero])
  have q : ∀ {k : ℕ} (hk : k ≤ 1021) {o : ℕ → Xmm Flagged}, ComputesIn (complexFFT (Xmm Flagged) thr) 3 [(.fwd0, Ptr.base 1)]
      (oneArray 3 fun _ j => Flagged.input ((![⟨.num (2 ^ k) false⟩, ⟨.num 0 false⟩] : Xmm Dbl64) j)) (Region (Ptr.base 1) 3) (Ptr.base 1) 3 o → ¬ (o 0 0).raised := by
    intro k hk o ho hr
    have c := Kind.computes thr (oneArray_ok 3 _).wf (k := .complex) (n := 3) (show intLen (3 : ℕ) from ⟨by norm_num, by norm_num⟩) (c := (Entry.fwd0, Ptr.base 1))
      ⟨h3, (oneArray_ok 3 _).arr.filled⟩ (oneArray_ok 3 fun _ j => Flagged.input ((![⟨.num (2 ^ k) false⟩, ⟨.num 0 false⟩] : Xmm Dbl64) j)).arr
    have := computesIn_unique (by simp [oneArray]) ho c 0 (by norm_num)
    rw [this] at hr
    have e := three_quiet i thr hk
    have hr : (fftOut (Xmm Flagged) thr Entry.fwd0.isInv Entry.fwd0.mode 3
      (fun _ j => Flagged.input ((![⟨.num (2 ^ k) false⟩, ⟨.num 0 false⟩] : Xmm Dbl64) j)) 0 0).raised := hr
    rw [e] at hr
    exact hr
  have n1 := q (le_refl _) h
  have n2 := q (by norm_num) h'
  exact ⟨out, out', h, h', n1, n2, e 0 (by norm_num) 0 n1 n2⟩

/-- the arrays the theorems on normalisation ask for -/
example (v : ℕ → Xmm Flagged) : UserArray (oneArray 16 v) (Ptr.base 1) 16 v ∧ (16 = 2 ^ (3 + 1)) ∧
    (twoArrays 16 v).WF ∧ Arr (twoArrays 16 v).heap (Ptr.base 1) 16 v ∧ Alloc (twoArrays 16 v).heap (Ptr.base 2) 16 ∧
    Sep (Ptr.base 1) 16 (Ptr.base 2) 16 :=
  ⟨oneArray_ok 16 v, rfl, (twoArrays_ok 16 v).wf, (twoArrays_ok 16 v).arr, twoArrays_alloc _ _, twoArrays_sep _⟩

end OTFFT.Props
