/-
C51: what NaNs and infinities in the input do.
-/
import Verif.Props.Hom
import Verif.Props.AccuracyReal
import Verif.Props.AccuracyBlue

namespace OTFFT.Props

variable {F : Type} [FArith F] [Inhabited F] {bad : F → Prop}

theorem pres_bad (B : Absorbing bad) : Pres (E := F) (F := ℝ) fun c a b => bad c ∨ a = b where
  zero := .inr rfl
  neg := by rintro c a a' (h | rfl); exacts [.inl (B.neg _ h), .inr rfl]
  add := by
    rintro c d a a' b b' (h | rfl) (h' | rfl)
    exacts [.inl (B.add _ _ (.inl h)), .inl (B.add _ _ (.inl h)), .inl (B.add _ _ (.inr h')), .inr rfl]
  sub := by
    rintro c d a a' b b' (h | rfl) (h' | rfl)
    exacts [.inl (B.sub _ _ (.inl h)), .inl (B.sub _ _ (.inl h)), .inl (B.sub _ _ (.inr h')), .inr rfl]
  mulL := by rintro k w c a a' (h | rfl); exacts [.inl (B.mul _ _ (.inr h)), .inr rfl]
  mulR := by rintro k w c a a' (h | rfl); exacts [.inl (B.mul _ _ (.inl h)), .inr rfl]
  div := by rintro k w c a a' (h | rfl); exacts [.inl (B.div _ _ h), .inr rfl]
  fmaL := by
    rintro k w c d a a' b b' (h | rfl) (h' | rfl)
    exacts [.inl (B.fma _ _ _ (.inr (.inl h))), .inl (B.fma _ _ _ (.inr (.inl h))), .inl (B.fma _ _ _ (.inr (.inr h'))), .inr rfl]
  fmaR := by
    rintro k w c d a a' b b' (h | rfl) (h' | rfl)
    exacts [.inl (B.fma _ _ _ (.inl h)), .inl (B.fma _ _ _ (.inl h)), .inl (B.fma _ _ _ (.inr (.inr h'))), .inr rfl]
  fmsL := by
    rintro k w c d a a' b b' (h | rfl) (h' | rfl)
    exacts [.inl (B.fms _ _ _ (.inr (.inl h))), .inl (B.fms _ _ _ (.inr (.inl h))), .inl (B.fms _ _ _ (.inr (.inr h'))), .inr rfl]
  fmsR := by
    rintro k w c d a a' b b' (h | rfl) (h' | rfl)
    exacts [.inl (B.fms _ _ _ (.inl h)), .inl (B.fms _ _ _ (.inl h)), .inl (B.fms _ _ _ (.inr (.inr h'))), .inr rfl]

/-- the transforms in floating point arithmetic and in exact arithmetic -/
theorem homBad (B : Absorbing bad) (i : Target) : letI := i.arith F
    HomLaws (E := F) (A := Xmm F) (F := ℝ) (C := ℂ) (fun c a b => bad c ∨ a = b) (AgreeGood bad) := by
  letI := i.arith F
  have h := Target.homLaws (pres_bad B) i (Equiv.refl (Xmm F)) cpx
  rw [C43_exact i] at h
  exact h

theorem zero_exact (e : Entry) (n t : ℕ) : e.exact n (fun _ => 0) t = 0 := by
  rw [exact_eq, xdft_sum]; simp

theorem single_exact (e : Entry) {n j : ℕ} (hj : j < n) (a : ℂ) (ha : a ≠ 0) (t : ℕ) :
    e.exact n (fun m => if m = j then a else 0) t ≠ 0 := by
  rw [exact_eq, xdft_sum, Finset.sum_eq_single j, if_pos rfl]
  · refine mul_ne_zero ?_ (mul_ne_zero ha (pow_ne_zero _ fun h => ?_))
    · have h0 : (n : ℝ) ≠ 0 := by exact_mod_cast (by omega : n ≠ 0)
      have h1 : √(n : ℝ) ≠ 0 := (Real.sqrt_pos.2 (by exact_mod_cast (by omega : 0 < n))).ne'
      rw [scC_eq]
      cases e <;> simp [Entry.mode, scR, h0] <;> omega
    · have := om_norm e.isInv n
      rw [h, norm_zero] at this
      norm_num at this
  · intro b _ hb; rw [if_neg hb, zero_mul]
  · intro h; exact absurd (Finset.mem_range.2 hj) h

/-- an element that takes part in every output -/
theorem all_bad {n : ℕ} (e : Entry) {v out : ℕ → Xmm F}
    (h : ∀ X Y : ℕ → ℂ, (∀ t < n, AgreeGood bad (v t) (X t) (Y t)) → ∀ t < n, AgreeGood bad (out t) (e.exact n X t) (e.exact n Y t))
    {j : ℕ} (hj : j < n) (hb : bad (v j 0) ∨ bad (v j 1)) : ∀ t < n, bad (out t 0) ∨ bad (out t 1) := by
  intro t ht
  obtain ⟨a, ha, hag⟩ : ∃ a : ℂ, a ≠ 0 ∧ AgreeGood bad (v j) 0 a := by
    rcases hb with hb | hb
    · exact ⟨1, one_ne_zero, .inl hb, .inr (by simp)⟩
    · exact ⟨Complex.I, Complex.I_ne_zero, .inr (by simp), .inl hb⟩
  have := h (fun _ => 0) (fun m => if m = j then a else 0) (fun m _ => by
    by_cases hm : m = j
    · subst hm; simpa using hag
    · rw [if_neg hm]; exact ⟨.inr rfl, .inr rfl⟩) t ht
  rw [zero_exact] at this
  rcases this.1 with h1 | h1
  · exact .inl h1
  rcases this.2 with h2 | h2
  · exact .inr h2
  exact absurd (Complex.ext h1.symm h2.symm) (single_exact e hj a ha t)

variable {w : World (Xmm F)} {x y : Ptr} {n : ℕ}

/-- C51: if one element of the input of a complex transform is bad (NaN; or: NaN or infinite), every element of the result
is. More precisely, a component of the result that is not bad is independent, mathematically, of all components of the
input that are. -/
theorem C51_complex (B : Absorbing bad) (i : Target) (thr : Thr) (hn : ValidLen n) {v : ℕ → Xmm F} (hx : UserArray w x n v)
    (e : Entry) : letI := i.arith F
    ∃ out : ℕ → Xmm F, Computes (complexFFT (Xmm F) thr) n [(e, x)] w x n out ∧
      (∀ X Y : ℕ → ℂ, (∀ t < n, AgreeGood bad (v t) (X t) (Y t)) → ∀ t < n, AgreeGood bad (out t) (e.exact n X t) (e.exact n Y t)) ∧
      ((∃ j < n, bad (v j 0) ∨ bad (v j 1)) → ∀ t < n, bad (out t 0) ∨ bad (out t 1)) := by
  letI := i.arith F
  have key : ∀ X Y : ℕ → ℂ, (∀ t < n, AgreeGood bad (v t) (X t) (Y t)) →
      ∀ t < n, AgreeGood bad (fftOut (Xmm F) thr e.isInv e.mode n v t) (e.exact n X t) (e.exact n Y t) := by
    intro X Y h t ht
    have := (homBad B i).fftOut_hom (thr := thr) (inv := e.isInv) (mode := e.mode) h t ht
    rwa [fftOut_C hn.two _ ht, fftOut_C hn.two _ ht, ← exact_eq, ← exact_eq] at this
  exact ⟨_, ⟨FFT.calls (es := [e]) hn hx, FFT.lifetime_noFail _ (by have := hn.two; omega) _ (lenNat_calls _)⟩, key,
    fun ⟨_, hj, hb⟩ => all_bad e key hj hb⟩

/-- C51: the same for Bluestein's algorithm -/
theorem C51_bluestein (B : Absorbing bad) (i : Target) (thr : Thr) (h1 : 1 ≤ n) (h29 : n ≤ 2 ^ 29) {v : ℕ → Xmm F}
    (hx : UserArray w x n v) (e : Entry) : letI := i.arith F
    ∃ out : ℕ → Xmm F, Computes (bluesteinFFT (Xmm F) thr) n [(e, x)] w x n out ∧
      (∀ X Y : ℕ → ℂ, (∀ t < n, AgreeGood bad (v t) (X t) (Y t)) → ∀ t < n, AgreeGood bad (out t) (e.exact n X t) (e.exact n Y t)) ∧
      ((∃ j < n, bad (v j 0) ∨ bad (v j 1)) → ∀ t < n, bad (out t 0) ∨ bad (out t 1)) := by
  letI := i.arith F
  have key : ∀ X Y : ℕ → ℂ, (∀ t < n, AgreeGood bad (v t) (X t) (Y t)) →
      ∀ t < n, AgreeGood bad (blueOutF (Xmm F) thr e n v t) (e.exact n X t) (e.exact n Y t) := by
    intro X Y h t ht
    have := (homBad B i).blueOut_hom (thr := thr) h29 e h t ht
    rwa [blueOutF_C thr e h1 h29 _ ht, blueOutF_C thr e h1 h29 _ ht, ← exact_eq, ← exact_eq] at this
  exact ⟨_, ComputesIn.toComputes (Bluestein.computes (thr := thr) hx.wf h1 h29 hx.arr [e]) (Set.empty_subset _) (fun _ _ => rfl), key,
    fun ⟨_, hj, hb⟩ => all_bad e key hj hb⟩

/-- C51: one bad sample of the input of a forward real transform makes every element of the spectrum bad. -/
theorem C51_real_forward (B : Absorbing bad) (i : Target) (thr : Thr) (hn : RealLen n) (wf : w.WF) {d : ℕ → F}
    (hx : Arr w.heap x n (doubles d)) (hy : Alloc w.heap y n) (hxy : Sep x n y n) (e : Entry)
    (he : e ∈ [Entry.fwd, .fwd0, .fwdu, .fwdn]) : letI := i.arith F
    ∃ out : ℕ → Xmm F, Computes (realFFT (Xmm F) thr) n [(e, x, y)] w y n out ∧
      (∀ X Y : ℕ → ℝ, (∀ t < n, bad (d t) ∨ X t = Y t) →
        ∀ t < n, AgreeGood bad (out t) (e.exact n (Spec.ofReal X) t) (e.exact n (Spec.ofReal Y) t)) ∧
      ((∃ j < n, bad (d j)) → ∀ t < n, bad (out t 0) ∨ bad (out t 1)) := by
  letI := i.arith F
  have hi : e.isInv = false := by
    simp only [List.mem_cons, List.not_mem_nil, or_false] at he
    rcases he with rfl | rfl | rfl | rfl <;> rfl
  have a : RealArgs w e n x y (doubles d) := ⟨wf, hn, by rw [rfftNeed, hi]; exact hx, hx.alloc, hy, hxy⟩
  have hex : ∀ (X : ℕ → ℝ) (t : ℕ), scC n e.mode * Spec.dft n (fun j => ((Spec.ofReal X j).re : ℂ)) t = e.exact n (Spec.ofReal X) t := by
    intro X t
    have hf : scR n e.mode = e.factor n := by cases e <;> rfl
    rw [scC_eq, hf]
    cases e <;> first | rfl | cases hi
  have key : ∀ X Y : ℕ → ℝ, (∀ t < n, bad (d t) ∨ X t = Y t) → ∀ t < n,
      AgreeGood bad (rfftOut (Xmm F) thr e n (doubles d) t) (e.exact n (Spec.ofReal X) t) (e.exact n (Spec.ofReal Y) t) := by
    intro X Y h t ht
    have := (homBad B i).rfftOut_hom (thr := thr) hn e (u := doubles d) (v := Spec.ofReal X) (v' := Spec.ofReal Y) (fun t ht => ⟨by
      rw [rfftNeed, hi] at ht
      exact h t ht, .inr rfl⟩) t ht
    rwa [rfftOut_fwd thr hi hn _ ht, rfftOut_fwd thr hi hn _ ht, hex, hex] at this
  refine ⟨_, ComputesIn.toComputes (RFFT.computes (thr := thr) a) (by rw [rfftDirty, hi]; exact le_refl _) (fun _ _ => rfl), key, ?_⟩
  rintro ⟨j, hj, hb⟩ t ht
  have := key (fun _ => 0) (fun m => if m = j then 1 else 0) (fun m _ => by
    by_cases hm : m = j
    · subst hm; exact .inl hb
    · rw [if_neg hm]; exact .inr rfl) t ht
  rw [show Spec.ofReal (fun _ => 0) = fun _ => 0 by funext m; simp [Spec.ofReal], zero_exact,
    show Spec.ofReal (fun m => if m = j then 1 else 0) = fun m => if m = j then 1 else 0 by
      funext m; simp only [Spec.ofReal]; split <;> simp] at this
  rcases this.1 with h1 | h1
  · exact .inl h1
  rcases this.2 with h2 | h2
  · exact .inr h2
  exact absurd (Complex.ext h1.symm h2.symm) (single_exact e hj 1 one_ne_zero t)

/-- C51: inverse real transforms: an output that is not bad does not depend, mathematically, on the components of the given
half spectrum that are bad. -/
theorem C51_real_inverse (B : Absorbing bad) (i : Target) (thr : Thr) (hn : RealLen n) (wf : w.WF) {v : ℕ → Xmm F}
    (hx : Arr w.heap x (n / 2 + 1) v) (hx' : Alloc w.heap x n) (hy : Alloc w.heap y n) (hxy : Sep x n y n) (e : Entry)
    (he : e ∈ [Entry.inv, .inv0, .invu, .invn]) : letI := i.arith F
    ∃ out : ℕ → F, ComputesIn (realFFT (Xmm F) thr) n [(e, x, y)] w (Region x n) y n (doubles out) ∧
      ∀ X Y : ℕ → ℂ, Spec.Hermitian n X → Spec.Hermitian n Y → (∀ t ≤ n / 2, AgreeGood bad (v t) (X t) (Y t)) →
        ∀ t < n, bad (out t) ∨ (e.exact n X t).re = (e.exact n Y t).re := by
  letI := i.arith F
  have hi : e.isInv = true := by
    simp only [List.mem_cons, List.not_mem_nil, or_false] at he
    rcases he with rfl | rfl | rfl | rfl <;> rfl
  have a : RealArgs w e n x y v := ⟨wf, hn, by rw [rfftNeed, hi]; exact hx, hx', hy, hxy⟩
  have hcell := fun t => rfft_cell i thr hi n v t
  refine ⟨fun t => rfftOut (Xmm F) thr e n v t 0, ?_, fun X Y hX hY h t ht => ?_⟩
  · obtain ⟨h1, h2⟩ := RFFT.computes (thr := thr) a
    refine ⟨Act.wp_mono h1 ?_, h2⟩
    rintro ok w' ⟨a', b, c⟩
    refine ⟨a', fun hok => ⟨(b hok).1.congr fun t ht => (hcell t).symm, fun l hl => (b hok).2 l fun h => hl ?_⟩, c⟩
    rw [rfftDirty, hi] at h
    rcases h with h | h | h
    · exact Or.inl h
    · exact Or.inr h
    · exact Or.inl h
  · have := (homBad B i).rfftOut_hom (thr := thr) hn e (u := v) (v := X) (v' := Y) (fun t ht => by
      rw [rfftNeed, hi, if_pos rfl] at ht
      exact h t (by omega)) t ht
    have hex : ∀ X, scC n e.mode * Spec.idft n X t = e.exact n X t := by
      intro X
      have hf : scR n e.mode = e.factor n := by cases e <;> rfl
      rw [scC_eq, hf]
      cases e <;> first | rfl | cases hi
    rw [rfftOut_inv thr hi hn hX ht, rfftOut_inv thr hi hn hY ht, hex, hex] at this
    exact this.1

theorem dct_exact (thr : Thr) (e : DctEntry) (hn : RealLen n) (X : ℕ → ℝ) {t : ℕ} (ht : t < n) :
    dctOut ℂ thr e n (Spec.ofReal X) t = (e.exact n X t : ℂ) := by
  have hf : scR n e.mode = e.factor n := by cases e <;> rfl
  cases hi : e.isInv with
  | false =>
    rw [dctOut_fwd thr hi hn _ ht, scC_eq, hf, ← Complex.ofReal_mul]
    cases e <;> first | rfl | cases hi
  | true =>
    rw [dctOut_inv thr hi hn _ ht, scC_eq, hf, ← Complex.ofReal_mul]
    cases e <;> first | rfl | cases hi

/-- C51: cosine transforms: sample `j` of the input, if bad, makes every output `t` bad into which it enters with a
coefficient other than 0. -/
theorem C51_dct (B : Absorbing bad) (i : Target) (thr : Thr) (hn : RealLen n) (h30 : n < 2 ^ 30) (wf : w.WF) {d : ℕ → F}
    (hx : Arr w.heap x n (doubles d)) (e : DctEntry) : letI := i.arith F
    ∃ out : ℕ → F, Computes (realDCT (Xmm F) thr) n [(e, x)] w x n (doubles out) ∧
      (∀ X Y : ℕ → ℝ, (∀ t < n, bad (d t) ∨ X t = Y t) → ∀ t < n, bad (out t) ∨ e.exact n X t = e.exact n Y t) ∧
      ∀ j < n, bad (d j) → ∀ t < n, e.exact n (fun m => if m = j then 1 else 0) t ≠ 0 → bad (out t) := by
  letI := i.arith F
  have hcell := fun t => (dct_cell (F := F) i thr e n (v := doubles d) (t := t) ⟨_, rfl⟩).1
  have key : ∀ X Y : ℕ → ℝ, (∀ t < n, bad (d t) ∨ X t = Y t) → ∀ t < n,
      bad (dctOut (Xmm F) thr e n (doubles d) t 0) ∨ e.exact n X t = e.exact n Y t := by
    intro X Y h t ht
    have := ((homBad B i).dctOut_hom (thr := thr) hn e (u := doubles d) (v := Spec.ofReal X) (v' := Spec.ofReal Y)
      (fun t ht => ⟨h t ht, .inr rfl⟩) t ht).1
    rwa [dct_exact thr e hn X ht, dct_exact thr e hn Y ht, Complex.ofReal_re, Complex.ofReal_re] at this
  refine ⟨fun t => dctOut (Xmm F) thr e n (doubles d) t 0,
    ComputesIn.toComputes (DCT.computes (thr := thr) wf hn h30 hx [e]) (Set.empty_subset _) (fun t _ => (hcell t).symm), key, ?_⟩
  intro j hj hb t ht hne
  refine (key (fun _ => 0) (fun m => if m = j then 1 else 0) (fun m _ => ?_) t ht).resolve_right fun h => hne ?_
  · by_cases hm : m = j
    · subst hm; exact .inl hb
    · rw [if_neg hm]; exact .inr rfl
  · rw [← h]
    cases e <;> simp [DctEntry.exact, Spec.dct, Spec.dct3]

/-! ### Examples -/

variable [Libm]

/-- infinities and NaNs are absorbing, in IEEE 754 arithmetic with any rounding -/
theorem C51_ieee (ρ : ℝ → ℝ) (Ω : ℝ) : Absorbing (Ieee.isNaN (ρ := ρ) (Ω := Ω)) ∧ Absorbing (Ieee.notFinite (ρ := ρ) (Ω := Ω)) :=
  ⟨Ieee.absorb_nan, Ieee.absorb_notFinite⟩

/-- one infinite number in an otherwise zero input: no element of the transform of length 15 is finite -/
example (thr : Thr) : letI := avxBuild.arith Dbl64
    let v : ℕ → Xmm Dbl64 := fun t => if t = 4 then ![⟨.inf false⟩, ⟨.num 0 false⟩] else ![⟨.num 0 false⟩, ⟨.num 0 false⟩]
    ∃ out : ℕ → Xmm Dbl64, Computes (complexFFT (Xmm Dbl64) thr) 15 [(.fwd, Ptr.base 1)] (oneArray 15 v) (Ptr.base 1) 15 out ∧
      ∀ t < 15, (out t 0).notFinite ∨ (out t 1).notFinite := by
  letI := avxBuild.arith Dbl64
  intro v
  obtain ⟨out, h, -, h'⟩ := C51_complex Ieee.absorb_notFinite avxBuild thr (validLen_of_le (n := 15) (by omega) (by omega))
    (oneArray_ok 15 v) .fwd
  exact ⟨out, h, h' ⟨4, by omega, .inl fun _ _ e => by cases e⟩⟩

/-- a NaN among the samples of a real signal of length 10: no element of its spectrum is a number -/
example (thr : Thr) (d : ℕ → Dbl64) (h3 : (d 3).isNaN) : letI := sse2Build.arith Dbl64
    ∃ out : ℕ → Xmm Dbl64, Computes (realFFT (Xmm Dbl64) thr) 10 [(.fwd, Ptr.base 1, Ptr.base 2)] (twoArrays 10 (doubles d)) (Ptr.base 2) 10 out ∧
      ∀ t < 10, (out t 0).isNaN ∨ (out t 1).isNaN := by
  letI := sse2Build.arith Dbl64
  have ok := twoArrays_ok 10 (doubles d)
  have h10 : RealLen 10 := .inr ⟨5, rfl, validLen_of_le (n := 5) (by omega) (by omega), by norm_num⟩
  obtain ⟨out, h, -, h'⟩ := C51_real_forward Ieee.absorb_nan sse2Build thr h10 (y := Ptr.base 2) ok.wf ok.arr
    (fun i hi => by simp only [twoArrays, Ptr.base, Ptr.loc_add, Nat.zero_add, hi]; simp) (Sep.of_buf (by simp [Ptr.base]) _ _)
    .fwd (by simp)
  exact ⟨out, h, h' ⟨3, by omega, h3⟩⟩

/-- a NaN in the constant coefficient of a half spectrum of length 10: every sample is NaN -/
example (thr : Thr) (v : ℕ → Xmm Dbl64) (h0 : (v 0 0).isNaN) : letI := sse2Build.arith Dbl64
    ∃ out : ℕ → Dbl64, ComputesIn (realFFT (Xmm Dbl64) thr) 10 [(.invn, Ptr.base 1, Ptr.base 2)] (twoArrays 10 v) (Region (Ptr.base 1) 10)
      (Ptr.base 2) 10 (doubles out) ∧ ∀ t < 10, (out t).isNaN := by
  letI := sse2Build.arith Dbl64
  have ok := twoArrays_ok 10 v
  have h10 : RealLen 10 := .inr ⟨5, rfl, validLen_of_le (n := 5) (by omega) (by omega), by norm_num⟩
  obtain ⟨out, h, h'⟩ := C51_real_inverse Ieee.absorb_nan sse2Build thr h10 (y := Ptr.base 2) ok.wf
    (fun j hj => ok.arr j (by omega)) ok.arr.alloc
    (fun i hi => by simp only [twoArrays, Ptr.base, Ptr.loc_add, Nat.zero_add, hi]; simp) (Sep.of_buf (by simp [Ptr.base]) _ _)
    .invn (by simp)
  refine ⟨out, h, fun t ht => (h' (fun _ => 0) (fun j => if j = 0 then 1 else 0) (fun j _ => (map_zero _).symm) (fun j hj => ?_) (fun j _ => ?_) t ht).resolve_right ?_⟩
  · rcases Nat.eq_zero_or_pos j with rfl | h0
    · simp
    · show (if (10 - j) % 10 = 0 then (1:ℂ) else 0) = (starRingEnd ℂ) (if j = 0 then 1 else 0)
      rw [if_neg (by omega), if_neg (by omega)]; simp
  · by_cases hj : j = 0
    · subst hj; exact ⟨.inl h0, .inr (by simp)⟩
    · exact ⟨.inr (by simp [hj]), .inr (by simp [hj])⟩
  · simp [Entry.exact, Spec.idft, Entry.factor]

/-- an infinity in sample 2 of the input of a cosine transform of length 10: its constant coefficient is not finite -/
example (thr : Thr) (d : ℕ → Dbl64) (h2 : (d 2).notFinite) : letI := avxBuild.arith Dbl64
    ∃ out : ℕ → Dbl64, Computes (realDCT (Xmm Dbl64) thr) 10 [(.fwd0, Ptr.base 1)] (oneArray 10 (doubles d)) (Ptr.base 1) 10 (doubles out) ∧
      (out 0).notFinite := by
  letI := avxBuild.arith Dbl64
  have ok := oneArray_ok 10 (doubles d)
  have h10 : RealLen 10 := .inr ⟨5, rfl, validLen_of_le (n := 5) (by omega) (by omega), by norm_num⟩
  obtain ⟨out, h, -, h'⟩ := C51_dct Ieee.absorb_notFinite avxBuild thr h10 (by norm_num) ok.wf ok.arr .fwd0
  refine ⟨out, h, h' 2 (by norm_num) h2 0 (by norm_num) ?_⟩
  simp [DctEntry.exact, Spec.dct, DctEntry.factor]

/-- a NaN in the input of Bluestein's algorithm for length 7 -/
example (thr : Thr) (v : ℕ → Xmm Dbl64) (h5 : (v 5 1).isNaN) : letI := avxBuild.arith Dbl64
    ∃ out : ℕ → Xmm Dbl64, Computes (bluesteinFFT (Xmm Dbl64) thr) 7 [(.inv, Ptr.base 1)] (oneArray 7 v) (Ptr.base 1) 7 out ∧
      ∀ t < 7, (out t 0).isNaN ∨ (out t 1).isNaN := by
  letI := avxBuild.arith Dbl64
  obtain ⟨out, h, -, h'⟩ := C51_bluestein Ieee.absorb_nan avxBuild thr (by norm_num) (by norm_num) (oneArray_ok 7 v) .inv
  exact ⟨out, h, h' ⟨5, by omega, .inr h5⟩⟩

end OTFFT.Props
