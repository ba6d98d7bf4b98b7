/-
C57: odd lengths of the real and cosine transforms. The library rejects them only by an `assert`
(`otfft_algo.cpp`), which release builds drop. What happens then: the real transforms run without undefined
behaviour but do not transform (`C57_real_*`); a cosine transform always has undefined behaviour
(`C57_dct`, `C57_dct0_overrun`).
All theorems but `C57_real_bin0` hold for any arithmetic, in particular for IEEE doubles.
-/
import Verif.Proof.OddHist
import Verif.Props.Limits
import Verif.Props.Raw
import Verif.Props.Identities
import Verif.Proof.Fail

namespace OTFFT.Props
open OTFFT Finset

section any
variable {F C : Type} [DArith F] [CArith F C] [Inhabited C] {thr : Thr} {w0 w : World C} {n : ℕ}

/-- the forward transforms, by name -/
def forward : Entry → Prop
  | .fwd | .fwd0 | .fwdu | .fwdn => True
  | .inv | .inv0 | .invu | .invn => False

theorem forward_iff (e : Entry) : forward e ↔ e.isInv = false := by cases e <;> simp [forward, Entry.isInv]
theorem not_forward_iff (e : Entry) : ¬ forward e ↔ e.isInv = true := by cases e <;> simp [forward, Entry.isInv]

/-- C57: a forward real transform of odd length `n`, half of which (rounded down) is a supported length, has no
undefined behaviour, but it never looks at the last sample: it reads `x[0..n-1)`, and with any other last
sample the result is the same. -/
theorem C57_real_forward {o : RFFT} {e : Entry} {x y : Ptr} (hw : w0.WF)
    (ha : After (realFFT C thr) intLen realOK w0 n o w) (hodd : n % 2 = 1) (hv : ValidLen (n / 2))
    (he : forward e) (hx : Filled w.heap x n) (hy : Alloc w.heap y n) (hxy : Sep x n y n)
    (hux : x.buf ∈ w0.live) (huy : y.buf ∈ w0.live) :
    Confined ((realFFT C thr).call o (e, x, y)) w.heap
      (Region x (n - 1) ∪ Region y n ∪ {l | l.1 ∈ w.live \ w0.live}) (Region y n) ∧
    ∃ h' : Heap C, ∀ c : C, Deterministic ((realFFT C thr).call o (e, x, y)) (w.heap.set (x + (n - 1)).loc c)
      (h'.set (x + (n - 1)).loc c) := by
  obtain ⟨m, rfl⟩ : ∃ m, n = 2 * m + 1 := ⟨n / 2, by omega⟩
  rw [show (2 * m + 1) / 2 = m by omega] at hv
  have h2 := hv.two
  obtain ⟨ow, hr, _⟩ := ha.real hw
  obtain ⟨v, hax⟩ := hx.arr
  rw [forward_iff] at he
  have hx0 := ow.wf.buf_ne (by omega) hx.alloc'
  have hy0 := ow.wf.buf_ne (by omega) hy
  have hxb : x.buf ∉ o.blocks := fun h => ow.disj _ h hux
  have hyb : y.buf ∉ o.blocks := fun h => ow.disj _ h huy
  rw [show 2 * m + 1 - 1 = 2 * m by omega]
  have key : ∀ h : Heap C, o.Ready C thr (2 * m + 1) h → Arr h x (2 * m) v → Alloc h y (2 * m + 1) →
      ∃ h', Good (Region x (2 * m) ∪ Region y (2 * m + 1) ∪ {l | l.1 ∈ insert 0 {b | b ∈ o.blocks}})
        (Region y (2 * m + 1)) (o.call C thr e x y) h h' ∧
        Arr h' y (2 * m + 1) (oddOut C thr e m v) ∧ ∀ l, l ∉ Region y (2 * m + 1) → h' l = h l := by
    intro h hr ax ay
    have := RFFT.call_odd (e := e) (x := x) (y := y) (v := v) hv hr
      (by simpa [oddNeed, he] using ax) ax.alloc (by simpa [oddFill, he] using ay)
      (fun i hi j hj => hxy i (by omega) j hj) hx0 hy0 hxb hyb
    simpa [oddFill, oddDirty, he] using this
  constructor
  · obtain ⟨h', g, -, -⟩ := key w.heap hr (fun i hi => hax i (by omega)) hy
    refine g.confined ?_ (fun l hl => hl)
    rintro l (h | h | h) hn
    · exact Or.inl h
    · exact absurd (ow.wf.dead l (h ▸ ow.wf.null)) hn
    · exact Or.inr ((ow.mem_blocks _).1 h)
  · obtain ⟨h', g, a, f⟩ := key w.heap hr (fun i hi => hax i (by omega)) hy
    refine ⟨h', fun c => ?_⟩
    have hns : (x + 2 * m).loc ∉ Region y (2 * m + 1) := by
      rintro ⟨j, hj, e⟩
      exact hxy.ne (by omega) hj e
    obtain ⟨h'', g', a', f'⟩ := key (w.heap.set (x + 2 * m).loc c)
      (hr.frame fun l hl => by
        rw [Heap.set_ne]
        rintro rfl
        rcases hl with h | h
        · exact hx0 h
        · exact hxb h)
      (fun i hi => by
        rw [Heap.set_ne]
        · exact hax i (by omega)
        · intro e; have := Ptr.add_loc_inj e; omega)
      (fun i hi => by
        rw [Heap.set_ne]
        · exact hy i hi
        · intro e; exact hxy.ne (by omega) hi e.symm)
    have : h'' = h'.set (x + 2 * m).loc c := by
      funext l
      by_cases hl : l ∈ Region y (2 * m + 1)
      · obtain ⟨j, hj, rfl⟩ := hl
        rw [a' j hj, Heap.set_ne, a j hj]
        intro e; exact hxy.ne (by omega) hj e.symm
      · rw [f' l hl]
        unfold Heap.set
        split
        · rfl
        · exact (f l hl).symm
    exact this ▸ g'.deterministic

/-- C57: an inverse real transform of such an odd length has no undefined behaviour, but it never writes the last
sample `y[n-1]`, nor does it look at what is there: it stays as it was. It reads only the first half of the spectrum, `x[0..n/2]`,
and overwrites its input. -/
theorem C57_real_inverse {o : RFFT} {e : Entry} {x y : Ptr} (hw : w0.WF)
    (ha : After (realFFT C thr) intLen realOK w0 n o w) (hodd : n % 2 = 1) (hv : ValidLen (n / 2))
    (he : ¬ forward e) (hx : Filled w.heap x (n / 2 + 1)) (hxa : Alloc w.heap x n) (hy : Alloc w.heap y n) (hxy : Sep x n y n)
    (hux : x.buf ∈ w0.live) (huy : y.buf ∈ w0.live) :
    Confined ((realFFT C thr).call o (e, x, y)) w.heap
      (Region x n ∪ Region y n ∪ {l | l.1 ∈ w.live \ w0.live}) (Region x (n - 1) ∪ Region y (n - 1)) ∧
    ∃ h', Deterministic ((realFFT C thr).call o (e, x, y)) w.heap h' ∧ h' (y + (n - 1)).loc = w.heap (y + (n - 1)).loc := by
  obtain ⟨m, rfl⟩ : ∃ m, n = 2 * m + 1 := ⟨n / 2, by omega⟩
  rw [show (2 * m + 1) / 2 = m by omega] at hv hx
  have h2 := hv.two
  obtain ⟨ow, hr, _⟩ := ha.real hw
  obtain ⟨v, hax⟩ := hx.arr
  rw [not_forward_iff] at he
  have hx0 := ow.wf.buf_ne (by omega) hxa
  have hy0 := ow.wf.buf_ne (by omega) hy
  have hxb : x.buf ∉ o.blocks := fun h => ow.disj _ h hux
  have hyb : y.buf ∉ o.blocks := fun h => ow.disj _ h huy
  rw [show 2 * m + 1 - 1 = 2 * m by omega]
  obtain ⟨h', g, a, f⟩ := RFFT.call_odd (e := e) (x := x) (y := y) (v := v) hv hr
      (by simpa [oddNeed, he] using hax) (fun i hi => hxa i (by omega))
      (fun i hi => hy i (by simp [oddFill, he] at hi; omega))
      (fun i hi j hj => hxy i (by omega) j hj) hx0 hy0 hxb hyb
  have hD : oddDirty e m x y = Region x (2 * m) ∪ Region y (2 * m) := by simp [oddDirty, he]
  rw [hD] at g f
  refine ⟨g.confined ?_ (fun l hl => hl), h', g.deterministic, f _ ?_⟩
  · rintro l ((h | h) | h | h) hn
    · exact Or.inl (Or.inl (Region.sub0 (by omega) h))
    · exact Or.inl (Or.inr h)
    · exact absurd (ow.wf.dead l (h ▸ ow.wf.null)) hn
    · exact Or.inr ((ow.mem_blocks _).1 h)
  · rintro (⟨j, hj, e⟩ | ⟨j, hj, e⟩)
    · exact hxy.ne (by omega) (by omega) e.symm
    · have := Ptr.add_loc_inj e; omega

/-- C57: a real transform of any other odd length `n ≥ 3` (`n = 3`, or `n/2` has a prime factor above 46341) has undefined behaviour in every execution. -/
theorem C57_real_bad {o : RFFT} {e : Entry} {x y : Ptr} (hw : w0.WF)
    (ha : After (realFFT C thr) intLen realOK w0 n o w) (hn : 3 ≤ n) (hodd : n % 2 = 1) (hv : ¬ ValidLen (n / 2)) :
    AlwaysUB (((realFFT C thr).call o (e, x, y)).start w.heap) := by
  obtain ⟨m, rfl⟩ : ∃ m, n = 2 * m + 1 := ⟨n / 2, by omega⟩
  rw [show (2 * m + 1) / 2 = m by omega] at hv
  obtain ⟨ow, hr, _⟩ := ha.real hw
  have := ha.lt31
  exact Code.Doomed.alwaysUB (RFFT.call_doomed_odd (e := e) (x := x) (y := y) (by omega) (by omega) hv hr) w.heap

/-- C57: a cosine transform of any odd length `n ≥ 3` has undefined behaviour in every execution, after any
history and for every entry point: it reads a cell of its work area that was never written. -/
theorem C57_dct {o : DCT} {e : DctEntry} {x : Ptr} (hw : w0.WF)
    (ha : After (realDCT C thr) dctLen dctOK w0 n o w) (hn : 3 ≤ n) (hodd : n % 2 = 1)
    (hx : Filled w.heap x n) (hu : x.buf ∈ w0.live) :
    AlwaysUB (((realDCT C thr).call o (e, x)).start w.heap) := by
  obtain ⟨m, rfl⟩ : ∃ m, n = 2 * m + 1 := ⟨n / 2, by omega⟩
  obtain ⟨ow, hr, _⟩ := ha.dct hw
  have h30 := ha.lt30
  have hnl : ¬ RealLen (2 * m + 1) := by
    rintro (h | ⟨k, h, _⟩) <;> omega
  have fr := After.dct_fresh hw ha hnl
  show AlwaysUB ((o.call C thr e x).start w.heap)
  by_cases hv : ValidLen m
  · rw [DCT.call_eq]
    obtain ⟨v, hax⟩ := hx.arr
    obtain ⟨by1, bz1, bV, bR, yz, yV, zV, yR, zR, VR⟩ := hr.bufs ow.nodup
    obtain ⟨b1, e1, y1, ay⟩ := hr.work1
    obtain ⟨b2, e2, z1, az⟩ := hr.work2
    rw [← y1] at ay
    rw [← z1] at az
    have hxy : x.buf ≠ o.y.buf := fun h => ow.disj _ (h ▸ by1) hu
    have hxz : x.buf ≠ o.z.buf := fun h => ow.disj _ (h ▸ bz1) hu
    have hy0 := ow.wf.buf_ne (by omega) ay
    have hz0 := ow.wf.buf_ne (by omega) az
    have dj : ∀ p : Ptr, p.buf ∉ o.dct.rfft.blocks → p.buf ≠ o.dct.V.buf → p.buf ∉ o.dct.blocks := by
      intro p h1 h2 h
      obtain ⟨b3, e3, e3', -⟩ := hr.dct.weight
      unfold DCT0.blocks at h
      rw [e3] at h
      rcases List.mem_append.1 h with h | h
      · exact h1 h
      · rw [e3'] at h2
        exact h2 (by simpa [Ptr.base] using h)
    cases hi : e.isInv with
    | false =>
      simp only [Bool.false_eq_true, if_false]
      exact DCT0.fwd_stuck (by omega) (by cases e <;> simp_all [DctEntry.isInv, DctEntry.real, Entry.isInv]) hr.dct
        (fun i hi => hax i (by omega)) ay (fun i _ j _ e => hxy (by have h := congrArg Ptr.buf e; exact h)) yz (fun u => fr m u)
    | true =>
      simp only [if_true]
      exact DCT0.inv_stuck hv (by cases e <;> simp_all [DctEntry.isInv, DctEntry.real, Entry.isInv]) hr.dct
        hax ay az yz hxy hxz hy0 hz0 (dj _ yR yV) (dj _ zR zV) (fun u => fr (2 * m) u)
  · exact Code.Doomed.alwaysUB (DCT0.call_doomed_odd (e := e) (x := x) (y := o.y) (z := o.z) (by omega) (by omega) hv hr.dct) w.heap

/-- C57: the forward cosine transform with the caller's work areas, all three arrays full of values, of an odd
length writes beyond the end of the caller's array: if `x` has no cell `x[n]`, every execution has undefined
behaviour. -/
theorem C57_dct0_overrun {o : DCT0} {e : DctEntry} {x y z : Ptr} (hw : w0.WF)
    (ha : After (rawDCT C thr) dctLen rawDCTOK w0 n o w) (hn : 3 ≤ n) (hodd : n % 2 = 1)
    (he : e = .fwd ∨ e = .fwd0 ∨ e = .fwdn)
    (hx : Filled w.heap x n) (hy : Filled w.heap y n) (hz : Filled w.heap z n)
    (hxy : Sep x n y n) (hyz : Sep y n z n)
    (huy : y.buf ∈ w0.live) (huz : z.buf ∈ w0.live)
    (hend : w.heap (x + n).loc = none) :
    AlwaysUB (((rawDCT C thr).call o (e, x, y, z)).start w.heap) := by
  obtain ⟨m, rfl⟩ : ∃ m, n = 2 * m + 1 := ⟨n / 2, by omega⟩
  obtain ⟨ow, hr, _⟩ := ha.rawDCT hw
  have h30 := ha.lt30
  show AlwaysUB ((o.call C thr e x y z).start w.heap)
  by_cases hv : ValidLen m
  · obtain ⟨v, hax⟩ := hx.arr
    have hi : e.isInv = false := by rcases he with rfl | rfl | rfl <;> rfl
    rw [DCT0.call_eq, hi]
    simp only [Bool.false_eq_true, if_false]
    exact DCT0.fwd_overrun hv (by cases e <;> simp_all [DctEntry.isInv, DctEntry.real, Entry.isInv]) hr
      (fun i hi => hax i (by omega)) hy hz.alloc' (fun i hi j hj => hxy i (by omega) j hj)
      (fun i hi j hj => hyz i (by omega) j hj) (ow.wf.buf_ne (by omega) hy.alloc') (ow.wf.buf_ne (by omega) hz.alloc')
      (fun h => ow.disj _ h huy) (fun h => ow.disj _ h huz) hend
  · exact Code.Doomed.alwaysUB (DCT0.call_doomed_odd (e := e) (x := x) (y := y) (z := z) (by omega) (by omega) hv hr) w.heap

end any

section exact
open scoped BigOperators
variable {thr : Thr} {w0 w : World ℂ} {n : ℕ}

/-- C57, exact arithmetic: bin 0 of a forward real transform of odd length is the (scaled) sum of all samples but
the last; it is the DFT's bin 0 exactly when the last sample is 0. -/
theorem C57_real_bin0 {o : RFFT} {e : Entry} {x y : Ptr} {r : ℕ → ℝ} (hw : w0.WF)
    (ha : After (realFFT ℂ thr) intLen realOK w0 n o w) (hodd : n % 2 = 1) (hv : ValidLen (n / 2))
    (he : forward e) (hx : Arr w.heap x n (Spec.ofReal r)) (hy : Alloc w.heap y n) (hxy : Sep x n y n)
    (hux : x.buf ∈ w0.live) (huy : y.buf ∈ w0.live) :
    ∃ (h' : Heap ℂ) (z : ℂ), Deterministic ((realFFT ℂ thr).call o (e, x, y)) w.heap h' ∧ h' y.loc = some (some z) ∧
      z = e.factor n * ∑ j ∈ range (n - 1), (r j : ℂ) ∧
      (z = e.factor n * Spec.dft n (Spec.ofReal r) 0 ↔ r (n - 1) = 0) := by
  obtain ⟨m, rfl⟩ : ∃ m, n = 2 * m + 1 := ⟨n / 2, by omega⟩
  rw [show (2 * m + 1) / 2 = m by omega] at hv
  have h2 := hv.two
  obtain ⟨ow, hr, _⟩ := ha.real hw
  rw [forward_iff] at he
  have hx0 := ow.wf.buf_ne (by omega) hx.alloc
  have hy0 := ow.wf.buf_ne (by omega) hy
  obtain ⟨h', g, a, -⟩ := RFFT.call_odd (e := e) (x := x) (y := y) (v := Spec.ofReal r) hv hr
      (fun i hi => hx i (by simp [oddNeed, he] at hi; omega)) (fun i hi => hx.alloc i (by omega))
      (by simpa [oddFill, he] using hy)
      (fun i hi j hj => hxy i (by omega) j hj) hx0 hy0 (fun h => ow.disj _ h hux) (fun h => ow.disj _ h huy)
  rw [show 2 * m + 1 - 1 = 2 * m by omega]
  have hz : oddOut ℂ thr e m (Spec.ofReal r) 0 = e.factor (2 * m + 1) * ∑ j ∈ range (2 * m), (r j : ℂ) := by
    unfold oddOut oddFwdOut oddPostOut
    rw [he]
    simp only [Bool.false_eq_true, if_false, if_true]
    rw [fftOut_C h2 _ (by omega), ← scC_factor]
    rw [ofD_C, rsc0_C]
    congr 1
    have hZ : scC m .scale_1 * xdft false m (rfftZin ℂ (Spec.ofReal r)) 0 =
        (∑ p ∈ range m, r (2 * p) : ℝ) + Complex.I * (∑ p ∈ range m, r (2 * p + 1) : ℝ) := by
      rw [xdft_sum]
      simp only [scC, mul_zero, pow_zero, mul_one, one_mul, rfftZin_C, Spec.ofReal, Complex.ofReal_re, sum_add_distrib, ← mul_sum]
      push_cast
      rfl
    rw [hZ, sum_even_odd]
    simp [CArith.re, CArith.im, fadd]
  refine ⟨h', _, g.deterministic, by have := a 0 (by simp [oddFill, he]); simpa using this, hz, ?_⟩
  rw [hz]
  have hf : (e.factor (2 * m + 1) : ℂ) ≠ 0 := by
    rw [← scC_factor]
    cases e <;> simp [scC, Entry.mode] <;> first | positivity | (norm_cast)
  have hs : Spec.dft (2 * m + 1) (Spec.ofReal r) 0 = ∑ j ∈ range (2 * m), (r j : ℂ) + r (2 * m) := by
    rw [Spec.dft_eq, xdft_sum, Finset.sum_range_succ]
    simp [Spec.ofReal]
  rw [hs, mul_right_inj' hf]
  simp

end exact

/-! ### the hypotheses can be met -/

section witness
variable {F C : Type} [DArith F] [CArith F C] [Inhabited C] {thr : Thr}

/-- a freshly made object of length 15 and two arrays -/
example (v : ℕ → C) : ∃ (o : RFFT) (w : World C), (twoArrays 15 v).WF ∧
    After (realFFT C thr) intLen realOK (twoArrays 15 v) 15 o w ∧ ValidLen (15 / 2) ∧ forward .fwd ∧ ¬ forward .inv ∧
    Filled w.heap (Ptr.base 1) 15 ∧ Filled w.heap (Ptr.base 2) 15 ∧ Sep (Ptr.base 1) 15 (Ptr.base 2) 15 ∧
    (Ptr.base 1).buf ∈ (twoArrays 15 v).live ∧ (Ptr.base 2).buf ∈ (twoArrays 15 v).live := by
  obtain ⟨o, w, h1, h2, h3⟩ := fresh_real (thr := thr) 15 (by norm_num) v
  exact ⟨o, w, (twoArrays_ok 15 v).wf, h1, validLen_of_le (by norm_num) (by norm_num), trivial, id, h2, h3,
    Sep.of_buf (by simp [Ptr.base]) _ _, by simp [twoArrays, Ptr.base], by simp [twoArrays, Ptr.base]⟩

/-- length 3 -/
example (v : ℕ → C) : ∃ (o : RFFT) (w : World C), (twoArrays 3 v).WF ∧
    After (realFFT C thr) intLen realOK (twoArrays 3 v) 3 o w ∧ ¬ ValidLen (3 / 2) := by
  obtain ⟨o, w, h1, h2, h3⟩ := fresh_real (thr := thr) 3 (by norm_num) v
  exact ⟨o, w, (twoArrays_ok 3 v).wf, h1, fun h => by have := h.two; omega⟩

/-- a freshly made cosine object of length 15 -/
example (v : ℕ → C) : ∃ (o : DCT) (w : World C), (oneArray 15 v).WF ∧
    After (realDCT C thr) dctLen dctOK (oneArray 15 v) 15 o w ∧ Filled w.heap (Ptr.base 1) 15 ∧
    (Ptr.base 1).buf ∈ (oneArray 15 v).live := by
  obtain ⟨o, w, h1, h2⟩ := fresh_dct (thr := thr) 15 (by norm_num) v
  exact ⟨o, w, (oneArray_ok 15 v).wf, h1, h2, rfl⟩

/-- three filled arrays of length `n` -/
def threeArrays (n : ℕ) (v : ℕ → C) : World C where
  heap := fun l => if l.2 < n ∧ (l.1 = 1 ∨ l.1 = 2 ∨ l.1 = 3) then some (some (v l.2)) else none
  live := {1, 2, 3}

omit [Inhabited C] in
theorem threeArrays_wf (n : ℕ) (v : ℕ → C) : (threeArrays n v).WF := by
  refine ⟨by simp [threeArrays], fun l hl => ?_⟩
  simp only [threeArrays, Set.mem_insert_iff, Set.mem_singleton_iff] at hl ⊢
  rw [if_neg fun h => hl h.2]

/-- a freshly made `DCT0` of length 15 and three arrays of 15 cells -/
example (v : ℕ → C) : ∃ (o : DCT0) (w : World C), After (rawDCT C thr) dctLen rawDCTOK (threeArrays 15 v) 15 o w ∧
    (∀ b, b = 1 ∨ b = 2 ∨ b = 3 → Filled w.heap (Ptr.base b) 15 ∧ (Ptr.base b).buf ∈ (threeArrays 15 v).live) ∧
    w.heap (Ptr.base 1 + 15).loc = none := by
  have hw := threeArrays_wf 15 v
  have h1 := ClsSpec.create_spec (rawDCTSpec C thr) (E := (threeArrays 15 v).live) (w := threeArrays 15 v) 15
    ⟨by omega, by omega⟩ (Owned.start hw)
  obtain ⟨r, w, hr, hsome, hs, -⟩ := Act.wp_exists_ok h1 (DCT0.create_noFail (thr := thr) (C := C) (by omega))
    (by simp [threeArrays])
  obtain ⟨o, rfl⟩ := Option.isSome_iff_exists.1 hsome
  refine ⟨o, w, ⟨15, [], ⟨by omega, by omega⟩, trivial, rfl, ?_⟩, fun b hb => ⟨fun i hi => ?_, ?_⟩, ?_⟩
  · exact Act.Runs.bind hr (Act.Runs.bind .ret .ret)
  · rw [hs _ (by simpa [threeArrays, Ptr.base, Ptr.loc] using hb)]
    exact ⟨v i, by simp [threeArrays, Ptr.base, Ptr.loc, hi, hb]⟩
  · simpa [threeArrays, Ptr.base] using hb
  · rw [hs _ (by simp [threeArrays, Ptr.base, Ptr.loc])]
    simp [threeArrays, Ptr.base, Ptr.loc]

end witness
end OTFFT.Props
