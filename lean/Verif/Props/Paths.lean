/-
C12: the size thresholds that switch between the single-threaded and the OpenMP code; and what the transforms
compute after an arbitrary history (C01–C05, C15, C16, C20, C22 for objects that have been used before).
-/
import Verif.Props.Memory
import Verif.Props.DCT

namespace OTFFT.Props
open OTFFT

variable {F C : Type} [DArith F] [CArith F C]

/-- not a power of two, or one of the powers of two for which the six-step or the mixed-radix code is used -/
def PathFree (n : ℕ) : Prop := (∀ k, n ≠ 2 ^ k) ∨ ∃ k, n = 2 ^ k ∧ (k = 16 ∨ 18 ≤ k)

theorem fftOut_thr {n : ℕ} (hp : PathFree n) (thr thr' : Thr) (inv : Bool) (mode : ScaleMode) :
    fftOut C thr inv mode n = fftOut C thr' inv mode n := by
  have key : dispatch (logOf n) = some .six ∨ dispatch (logOf n) = some .mixed := by
    rcases hp with h | ⟨k, rfl, h⟩
    · rw [logOf_none h]; exact Or.inr rfl
    · rw [logOf_pow]
      rcases h with rfl | h
      · exact Or.inl rfl
      · unfold dispatch
        split <;> first | (exfalso; injections; omega) | simp
  funext v
  unfold fftOut
  rcases key with h | h <;> rw [h] <;> rfl

/-- C12: for these lengths the result does not depend on any of the thresholds (where the code switches from
the serial to the OpenMP path), bit for bit in any arithmetic: there is one result for each input. -/
theorem C12_complex (C : Type) [CArith F C] [Inhabited C] {n : ℕ} (hn : ValidLen n) (hp : PathFree n) (e : Entry) (v : ℕ → C) :
    ∃ r : ℕ → C, ∀ (thr : Thr) (w : World C) (x : Ptr), UserArray w x n v →
      Computes (complexFFT C thr) n [(e, x)] w x n r := by
  refine ⟨fftOut C Thr.omp e.isInv e.mode n v, fun thr w x hx => ⟨?_, FFT.lifetime_noFail _ (by omega) _ (lenNat_calls _)⟩⟩
  have h := FFT.calls (C := C) (thr := thr) (es := [e]) hn hx
  simp only [fftOuts, fftOut_thr hp thr Thr.omp] at h
  exact h

/-- C12 for the real transform of length `n = 2m`. -/
theorem C12_real (C : Type) [CArith F C] [Inhabited C] {m : ℕ} (hm : ValidLen m) (hi : 2 * m < 2 ^ 31) (hp : PathFree m) (e : Entry) (v : ℕ → C) :
    ∃ r : ℕ → C, ∀ (thr : Thr) (w : World C) (x y : Ptr), w.WF → Arr w.heap x (2 * m) v → Alloc w.heap y (2 * m) →
      Sep x (2 * m) y (2 * m) →
      ComputesIn (realFFT C thr) (2 * m) [(e, x, y)] w (Region x (2 * m) ∪ Region y (2 * m)) y (2 * m) r := by
  have hl : RealLen (2 * m) := Or.inr ⟨m, rfl, hm, hi⟩
  refine ⟨rfftOut C Thr.omp e (2 * m) v, fun thr w x y hw hx hy hs => ?_⟩
  have h := RFFT.computes (thr := thr) (e := e) (n := 2 * m) (x := x) (y := y) (v := v) (w := w)
    ⟨hw, hl, fun i hi => hx i (lt_of_lt_of_le hi (rfftNeed_le hl)), hx.alloc, hy, hs⟩
  have e1 : rfftOut C thr e (2 * m) v = rfftOut C Thr.omp e (2 * m) v := by
    unfold rfftOut rfftInvOut rfftFwdOut
    rw [show 2 * m / 2 = m by omega]
    simp only [fftOut_thr hp thr Thr.omp]
  rw [e1] at h
  refine ⟨Act.wp_mono h.1 ?_, h.2⟩
  rintro ok w' ⟨a, b, c⟩
  refine ⟨a, fun h => ⟨(b h).1, fun l hl => (b h).2 l ?_⟩, c⟩
  rintro (h' | h')
  · exact hl (Or.inr (Or.inr h'))
  · exact hl (Or.inr (RFFT.dirty_sub _ _ _ _ h'))

/-- C12 for the cosine transform of length `n = 2m`. -/
theorem C12_dct (C : Type) [CArith F C] [Inhabited C] {m : ℕ} (hm : ValidLen m) (hi : 2 * m < 2 ^ 30) (hp : PathFree m) (e : DctEntry) (v : ℕ → C) :
    ∃ r : ℕ → C, ∀ (thr : Thr) (w : World C) (x : Ptr), UserArray w x (2 * m) v →
      ComputesIn (realDCT C thr) (2 * m) [(e, x)] w ∅ x (2 * m) r := by
  have hl : RealLen (2 * m) := Or.inr ⟨m, rfl, hm, by omega⟩
  refine ⟨dctOut C Thr.omp e (2 * m) v, fun thr w x hx => ?_⟩
  have h := DCT.computes (thr := thr) hx.wf hl hi hx.arr [e]
  have e1 : dctOut C thr e (2 * m) v = dctOut C Thr.omp e (2 * m) v := by
    unfold dctOut rfftOut rfftInvOut rfftFwdOut
    rw [show 2 * m / 2 = m by omega]
    simp only [fftOut_thr hp thr Thr.omp]
  simp only [List.foldl] at h
  rw [e1] at h
  exact h

example : PathFree 15 := Or.inl fun k h => by
  rcases Nat.lt_or_ge k 4 with hk | hk
  · interval_cases k <;> omega
  · have := Nat.pow_le_pow_right (n := 2) (by omega) hk
    omega
example : PathFree (2 ^ 20) := Or.inr ⟨20, rfl, by omega⟩

/-! ### Exact results after an arbitrary history -/

/-- what the entry points of a complex transform of length `n` are supposed to compute -/
noncomputable def _root_.OTFFT.Spec.result (e : Entry) (n : ℕ) (v : ℕ → ℂ) (k : ℕ) : ℂ :=
  match e with
  | .fwd0 => Spec.dft n v k
  | .fwd | .fwdn => 1 / (n : ℂ) * Spec.dft n v k
  | .fwdu => ((1 / Real.sqrt n : ℝ) : ℂ) * Spec.dft n v k
  | .inv | .inv0 => Spec.idft n v k
  | .invu => ((1 / Real.sqrt n : ℝ) : ℂ) * Spec.idft n v k
  | .invn => 1 / (n : ℂ) * Spec.idft n v k

theorem result_eq (e : Entry) (n : ℕ) (v : ℕ → ℂ) (k : ℕ) :
    Spec.result e n v k = scC n e.mode * xdft e.isInv n v k := by
  cases e <;> simp [Spec.result, scC, Entry.mode, Entry.isInv, Spec.dft_eq, Spec.idft_eq]

/-- C30 in exact arithmetic: whatever was done with the object before, each transform computes the DFT it
promises, and touches nothing else of the client's memory. -/
theorem C30_complex_exact {thr : Thr} {w0 w : World ℂ} {n : ℕ} {o : FFT} {x : Ptr} {v : ℕ → ℂ} (e : Entry) (hw : w0.WF)
    (ha : After (complexFFT ℂ thr) intLen complexOK w0 n o w) (hn : ValidLen n) (hax : Arr w.heap x n v)
    (hu : x.buf ∈ w0.live) :
    AllSched (fun h' => Arr h' x n (Spec.result e n v) ∧ ∀ l : Loc, l.1 ∈ w0.live → l ∉ Region x n → h' l = w.heap l)
      (((complexFFT ℂ thr).call o (e, x)).start w.heap) := by
  obtain ⟨ow, hr, _⟩ := ha.complex hw
  obtain ⟨h', g, a, f⟩ := FFT.call_good (rest := []) (e := e) hn ow (by simp) hr hax (fun h => ow.disj _ h hu)
  refine g.allSched.mono ?_
  rintro _ rfl
  refine ⟨a.congr fun t ht => ?_, fun l hl hx => f l hx ?_⟩
  · rw [fftOut_C hn.two v ht, result_eq]
  · rintro ⟨i, _, rfl⟩
    exact ow.disj _ hr.y_mem hl

theorem C30_bluestein_exact {thr : Thr} {w0 w : World ℂ} {n : ℕ} {o : Bluestein} {x : Ptr} {v : ℕ → ℂ} (e : Entry) (hw : w0.WF)
    (ha : After (bluesteinFFT ℂ thr) blueLen blueOK w0 n o w) (hn : 1 ≤ n) (h29 : n ≤ 2 ^ 29)
    (hax : Arr w.heap x n v) (hu : x.buf ∈ w0.live) :
    AllSched (fun h' => Arr h' x n (Spec.result e n v) ∧ ∀ l : Loc, l.1 ∈ w0.live → l ∉ Region x n → h' l = w.heap l)
      (((bluesteinFFT ℂ thr).call o (e, x)).start w.heap) := by
  obtain ⟨ow, hr, _⟩ := ha.blue hw
  obtain ⟨h', g, a, f⟩ := Bluestein.call_good (e := e) hn h29 ow (hr hn) hax (fun h => ow.disj _ h hu)
  obtain ⟨m1, m2, -, m3, -⟩ := (hr hn).bufs ow.nodup
  refine g.allSched.mono ?_
  rintro _ rfl
  refine ⟨a.congr fun t ht => ?_, fun l hl hx => f l ?_⟩
  · rw [blueOutF_C thr e hn h29 v ht, result_eq]
  · rintro (h | (⟨i, _, rfl⟩ | ⟨i, _, rfl⟩) | ⟨i, _, rfl⟩)
    · exact hx h
    · exact ow.disj _ m1 hl
    · exact ow.disj _ m2 hl
    · exact ow.disj _ (m3 _ (hr hn).fft.y_mem) hl

/-- Forward real transforms after any history: the DFT of the real input; the input array is not written. -/
theorem C30_real_forward_exact {thr : Thr} {w0 w : World ℂ} {n : ℕ} {o : RFFT} {x y : Ptr} {r : ℕ → ℝ} (e : Entry)
    (he : e = .fwd ∨ e = .fwd0 ∨ e = .fwdu ∨ e = .fwdn) (hw : w0.WF)
    (ha : After (realFFT ℂ thr) intLen realOK w0 n o w) (hx : realOK n (e, x, y) w.heap)
    (hax : Arr w.heap x n (Spec.ofReal r)) (hux : x.buf ∈ w0.live) (huy : y.buf ∈ w0.live) :
    AllSched (fun h' => Arr h' y n (Spec.result e n (Spec.ofReal r)) ∧ ∀ l : Loc, l ∉ Region y n → h' l = w.heap l)
      (((realFFT ℂ thr).call o (e, x, y)).start w.heap) := by
  have hi : e.isInv = false := by rcases he with rfl | rfl | rfl | rfl <;> rfl
  obtain ⟨ow, hr, _⟩ := ha.real hw
  obtain ⟨h1, h2, h3, h4, h5⟩ := hx
  obtain ⟨h', g, a, f⟩ := RFFT.call_good (e := e) h1 hr (fun i hi => hax i (lt_of_lt_of_le hi (rfftNeed_le h1))) h3 h4 h5
    (ow.wf.buf_ne h1.pos h3) (ow.wf.buf_ne h1.pos h4) (fun h => ow.disj _ h hux) (fun h => ow.disj _ h huy)
  refine g.allSched.mono ?_
  rintro _ rfl
  refine ⟨a.congr fun t ht => ?_, fun l hl => f l ?_⟩
  · rw [rfftOut_fwd thr hi h1 _ ht, result_eq, hi, Spec.dft_eq]
    rfl
  · unfold rfftDirty; rw [hi]; exact hl

/-- Inverse real transforms after any history. -/
theorem C30_real_inverse_exact {thr : Thr} {w0 w : World ℂ} {n : ℕ} {o : RFFT} {x y : Ptr} {X : ℕ → ℂ} (e : Entry)
    (he : e = .inv ∨ e = .inv0 ∨ e = .invu ∨ e = .invn) (hw : w0.WF)
    (ha : After (realFFT ℂ thr) intLen realOK w0 n o w) (hx : realOK n (e, x, y) w.heap)
    (hX : Spec.Hermitian n X) (hax : Arr w.heap x (n / 2 + 1) X) (hux : x.buf ∈ w0.live) (huy : y.buf ∈ w0.live) :
    AllSched (fun h' => Arr h' y n (Spec.result e n X) ∧ ∀ l : Loc, l ∉ Region x n ∪ Region y n → h' l = w.heap l)
      (((realFFT ℂ thr).call o (e, x, y)).start w.heap) := by
  have hi : e.isInv = true := by rcases he with rfl | rfl | rfl | rfl <;> rfl
  obtain ⟨ow, hr, _⟩ := ha.real hw
  obtain ⟨h1, h2, h3, h4, h5⟩ := hx
  have hne : rfftNeed e n = n / 2 + 1 := by unfold rfftNeed; rw [hi]; rfl
  obtain ⟨h', g, a, f⟩ := RFFT.call_good (e := e) h1 hr (by rw [hne]; exact hax) h3 h4 h5
    (ow.wf.buf_ne h1.pos h3) (ow.wf.buf_ne h1.pos h4) (fun h => ow.disj _ h hux) (fun h => ow.disj _ h huy)
  refine g.allSched.mono ?_
  rintro _ rfl
  refine ⟨a.congr fun t ht => ?_, fun l hl => f l fun h => hl (RFFT.dirty_sub _ _ _ _ h)⟩
  rw [rfftOut_inv thr hi h1 hX ht, result_eq, hi, Spec.idft_eq]

/-- what the cosine transforms are supposed to compute -/
noncomputable def _root_.OTFFT.Spec.dctResult (e : DctEntry) (n : ℕ) (r : ℕ → ℝ) (k : ℕ) : ℝ :=
  match e with
  | .fwd0 => Spec.dct n r k
  | .fwd | .fwdn => 1 / (n : ℝ) * Spec.dct n r k
  | .inv | .inv0 => Spec.dct3 n r k
  | .invn => 1 / (n : ℝ) * Spec.dct3 n r k

/-- Cosine transforms after any history. -/
theorem C30_dct_exact {thr : Thr} {w0 w : World ℂ} {n : ℕ} {o : DCT} {x : Ptr} {r : ℕ → ℝ} (e : DctEntry) (hw : w0.WF)
    (ha : After (realDCT ℂ thr) dctLen dctOK w0 n o w) (hn : RealLen n) (hax : Arr w.heap x n (Spec.ofReal r))
    (hu : x.buf ∈ w0.live) :
    AllSched (fun h' => Arr h' x n (Spec.ofReal (Spec.dctResult e n r)) ∧
        ∀ l : Loc, l.1 ∈ w0.live → l ∉ Region x n → h' l = w.heap l)
      (((realDCT ℂ thr).call o (e, x)).start w.heap) := by
  obtain ⟨ow, hr, _⟩ := ha.dct hw
  obtain ⟨h', g, a, f⟩ := DCT.call_good (e := e) hn ow hr hax (fun h => ow.disj _ h hu)
  obtain ⟨m1, m2, -⟩ := hr.bufs ow.nodup
  refine g.allSched.mono ?_
  rintro _ rfl
  refine ⟨a.congr fun t ht => ?_, fun l hl hx => f l ?_⟩
  · cases hi : e.isInv with
    | false =>
      rw [dctOut_fwd thr hi hn r ht]
      cases e <;> first | (cases hi; done) | simp [Spec.dctResult, Spec.ofReal, scC, DctEntry.mode, DctEntry.real, Entry.mode]
    | true =>
      rw [dctOut_inv thr hi hn r ht]
      cases e <;> first | (cases hi; done) | simp [Spec.dctResult, Spec.ofReal, scC, DctEntry.mode, DctEntry.real, Entry.mode]
  · rintro ((h | ⟨i, _, rfl⟩) | ⟨i, _, rfl⟩)
    · exact hx h
    · exact ow.disj _ m1 hl
    · exact ow.disj _ m2 hl

end OTFFT.Props
