/-
C14, C18, C26: exactly which lengths the transforms can handle. For the other lengths every execution of
every transform runs into undefined behaviour, whatever the arrays contain and whatever the schedule.
All theorems hold for any arithmetic, in particular for IEEE doubles.
-/
import Verif.Proof.Limits
import Verif.Props.Memory
import Mathlib.Tactic.NormNum.Prime

namespace OTFFT.Props
open OTFFT

variable {F C : Type} [DArith F] [CArith F C] [Inhabited C] {thr : Thr} {w0 w : World C} {n : ℕ}

/-- C26: after any history, a complex transform of length `n ≥ 1` on an initialised client array is free of
undefined behaviour exactly when `n` is at least 2 and has no prime factor above 46341, and otherwise no
execution escapes undefined behaviour. -/
theorem C26_complex {o : FFT} {e : Entry} {x : Ptr} (hw : w0.WF)
    (ha : After (complexFFT C thr) intLen complexOK w0 n o w) (hn : 1 ≤ n)
    (hx : Filled w.heap x n) (hu : x.buf ∈ w0.live) :
    (((complexFFT C thr).call o (e, x)).CanUB w.heap ↔ ¬ (2 ≤ n ∧ ∀ q, q.Prime → q ∣ n → q ≤ 46341)) ∧
    (((complexFFT C thr).call o (e, x)).CanUB w.heap →
      AlwaysUB (((complexFFT C thr).call o (e, x)).start w.heap)) := by
  obtain ⟨ow, hr, _⟩ := ha.complex hw
  have key : ¬ (2 ≤ n ∧ ∀ q, q.Prime → q ∣ n → q ≤ 46341) →
      AlwaysUB (((complexFFT C thr).call o (e, x)).start w.heap) := fun h =>
    Code.Doomed.alwaysUB (FFT.call_doomed (e := e) (x := x) hn ha.lt31 (fun v => h ⟨v.two, v.small⟩) hr) w.heap
  have conv : ((complexFFT C thr).call o (e, x)).CanUB w.heap →
      ¬ (2 ≤ n ∧ ∀ q, q.Prime → q ∣ n → q ≤ 46341) := by
    rintro ⟨d, hd, hu'⟩ ⟨h1, h2⟩
    obtain ⟨h', hdet⟩ := C11_complex hw ha (e := e) (x := x) ⟨⟨h1, h2, ha.lt31⟩, hx⟩ hu
    exact hdet.1.noUB hd hu'
  exact ⟨⟨conv, fun h => (key h).reach⟩, fun h => key (conv h)⟩

/-- C26 for real transforms of even length `n ≥ 2`: no undefined behaviour exactly when `n ≥ 4` and no prime
factor exceeds 46341. -/
theorem C26_real {o : RFFT} {e : Entry} {x y : Ptr} (hw : w0.WF)
    (ha : After (realFFT C thr) intLen realOK w0 n o w) (hn : 2 ≤ n) (heven : 2 ∣ n)
    (hx : Filled w.heap x n) (hy : Alloc w.heap y n) (hxy : Sep x n y n)
    (hux : x.buf ∈ w0.live) (huy : y.buf ∈ w0.live) :
    (((realFFT C thr).call o (e, x, y)).CanUB w.heap ↔ ¬ (4 ≤ n ∧ ∀ q, q.Prime → q ∣ n → q ≤ 46341)) ∧
    (((realFFT C thr).call o (e, x, y)).CanUB w.heap →
      AlwaysUB (((realFFT C thr).call o (e, x, y)).start w.heap)) := by
  obtain ⟨ow, hr, _⟩ := ha.real hw
  obtain ⟨m, rfl⟩ := heven
  have hi : 2 * m < 2 ^ 31 := by have := ha.lt31; omega
  have hv : ValidLen m ↔ (4 ≤ 2 * m ∧ ∀ q, q.Prime → q ∣ 2 * m → q ≤ 46341) := by
    constructor
    · rintro ⟨h1, h2, _⟩
      refine ⟨by omega, fun q hq hd => ?_⟩
      rcases hq.dvd_mul.1 hd with h | h
      · have := Nat.le_of_dvd (by omega) h; omega
      · exact h2 q hq h
    · rintro ⟨h1, h2⟩
      exact ⟨by omega, fun q hq hd => h2 q hq (hd.mul_left 2), by omega⟩
  rw [← hv]
  have key : ¬ ValidLen m → AlwaysUB (((realFFT C thr).call o (e, x, y)).start w.heap) := fun h =>
    Code.Doomed.alwaysUB (RFFT.call_doomed (e := e) (x := x) (y := y) (by omega) (by omega) h hr) w.heap
  have conv : ((realFFT C thr).call o (e, x, y)).CanUB w.heap → ¬ ValidLen m := by
    rintro ⟨d, hd, hu'⟩ h
    have hl : RealLen (2 * m) := Or.inr ⟨m, rfl, h, hi⟩
    obtain ⟨h', hdet⟩ := C11_real hw ha (e := e) (x := x) (y := y)
      ⟨hl, fun i hi => hx i (lt_of_lt_of_le hi (by rw [realNeed_eq]; exact rfftNeed_le hl)), hx.alloc', hy, hxy⟩ hux huy
    exact hdet.1.noUB hd hu'
  exact ⟨⟨conv, fun h => (key h).reach⟩, fun h => key (conv h)⟩

/-- C26 for cosine transforms of even length `n ≥ 2`. -/
theorem C26_dct {o : DCT} {e : DctEntry} {x : Ptr} (hw : w0.WF)
    (ha : After (realDCT C thr) dctLen dctOK w0 n o w) (hn : 2 ≤ n) (heven : 2 ∣ n)
    (hx : Filled w.heap x n) (hu : x.buf ∈ w0.live) :
    (((realDCT C thr).call o (e, x)).CanUB w.heap ↔ ¬ (4 ≤ n ∧ ∀ q, q.Prime → q ∣ n → q ≤ 46341)) ∧
    (((realDCT C thr).call o (e, x)).CanUB w.heap →
      AlwaysUB (((realDCT C thr).call o (e, x)).start w.heap)) := by
  obtain ⟨ow, hr, _⟩ := ha.dct hw
  obtain ⟨m, rfl⟩ := heven
  have hi : 2 * m < 2 ^ 31 := by have := ha.lt30; omega
  have hv : ValidLen m ↔ (4 ≤ 2 * m ∧ ∀ q, q.Prime → q ∣ 2 * m → q ≤ 46341) := by
    constructor
    · rintro ⟨h1, h2, _⟩
      refine ⟨by omega, fun q hq hd => ?_⟩
      rcases hq.dvd_mul.1 hd with h | h
      · have := Nat.le_of_dvd (by omega) h; omega
      · exact h2 q hq h
    · rintro ⟨h1, h2⟩
      exact ⟨by omega, fun q hq hd => h2 q hq (hd.mul_left 2), by omega⟩
  rw [← hv]
  have key : ¬ ValidLen m → AlwaysUB (((realDCT C thr).call o (e, x)).start w.heap) := fun h =>
    Code.Doomed.alwaysUB (DCT.call_doomed (e := e) (x := x) (by omega) (by omega) h hr) w.heap
  have conv : ((realDCT C thr).call o (e, x)).CanUB w.heap → ¬ ValidLen m := by
    rintro ⟨d, hd, hu'⟩ h
    obtain ⟨h', hdet⟩ := C11_dct hw ha (e := e) (x := x) ⟨Or.inr ⟨m, rfl, h, hi⟩, hx⟩ hu
    exact hdet.1.noUB hd hu'
  exact ⟨⟨conv, fun h => (key h).reach⟩, fun h => key (conv h)⟩

/-- C14: every transform of a `ComplexFFT` object of length 1, on any pointer and any memory contents, always
runs into undefined behaviour. -/
theorem C14_lengthOne {o : FFT} (hw : w0.WF)
    (ha : After (complexFFT C thr) intLen complexOK w0 1 o w) (e : Entry) (x : Ptr) (h : Heap C) :
    AlwaysUB (((complexFFT C thr).call o (e, x)).start h) :=
  Code.Doomed.alwaysUB (FFT.call_doomed le_rfl (by omega) (fun v => absurd v.two (by omega)) (ha.complex hw).2.1) h

/-- C14: while length 1 works for the other classes: `RealFFT` copies the number … -/
theorem C14_real {o : RFFT} {e : Entry} {x y : Ptr} (hw : w0.WF)
    (ha : After (realFFT C thr) intLen realOK w0 1 o w)
    (hx : realOK 1 (e, x, y) w.heap) (hux : x.buf ∈ w0.live) (huy : y.buf ∈ w0.live) :
    ¬ ((realFFT C thr).call o (e, x, y)).CanUB w.heap := by
  obtain ⟨h', hdet⟩ := C11_real hw ha hx hux huy
  rintro ⟨d, hd, hu⟩
  exact hdet.1.noUB hd hu

/-- C18: every `RealFFT` transform of length 2 always runs into undefined behaviour, and so does every
`RealDCT` transform of length 2. -/
theorem C18_real {o : RFFT} (hw : w0.WF)
    (ha : After (realFFT C thr) intLen realOK w0 2 o w) (e : Entry) (x y : Ptr) (h : Heap C) :
    AlwaysUB (((realFFT C thr).call o (e, x, y)).start h) :=
  Code.Doomed.alwaysUB (RFFT.call_doomed (m := 1) le_rfl (by omega) (fun v => absurd v.two (by omega)) (ha.real hw).2.1) h

theorem C18_dct {o : DCT} (hw : w0.WF)
    (ha : After (realDCT C thr) dctLen dctOK w0 2 o w) (e : DctEntry) (x : Ptr) (h : Heap C) :
    AlwaysUB (((realDCT C thr).call o (e, x)).start h) :=
  Code.Doomed.alwaysUB (DCT.call_doomed (m := 1) le_rfl (by omega) (fun v => absurd v.two (by omega)) (ha.dct hw).2.1) h

/-- C26: a documented (even) length that overflows: `n = 2·46349 = 92698`. -/
theorem C26_overflow_92698 {o : FFT} (hw : w0.WF)
    (ha : After (complexFFT C thr) intLen complexOK w0 92698 o w) (e : Entry) (x : Ptr) (h : Heap C) :
    AlwaysUB (((complexFFT C thr).call o (e, x)).start h) := by
  refine Code.Doomed.alwaysUB (FFT.call_doomed (n := 92698) (by omega) (by omega) (fun v => ?_) (ha.complex hw).2.1) h
  have := v.small 46349 (by norm_num) (by norm_num)
  omega

/-! ### The hypotheses are met -/

/-- an object of every accepted length can be made, and the client's array is still initialised afterwards -/
theorem fresh_complex (n : ℕ) (hn : n < 2 ^ 31 - 1) (v : ℕ → C) : ∃ (o : FFT) (w : World C),
    After (complexFFT C thr) intLen complexOK (oneArray n v) n o w ∧ Filled w.heap (Ptr.base 1) n ∧
      (Ptr.base 1).buf ∈ (oneArray n v).live := by
  have hw := (oneArray_ok n v).wf
  obtain ⟨o, w, ha, hk⟩ := After.exists (complexFFTSpec C thr) (n0 := n) (ops := []) hw (Set.finite_singleton 1)
    (complexOK.valid hw) ⟨by omega, by omega⟩ trivial
    (Cls.use_noFail (X := complexFFT C thr) (fun _ h => FFT.create_noFail h) (fun _ _ h => FFT.setup_noFail h) _ (by omega) _ (by simp [Op.lenNat]))
  exact ⟨o, w, ha, (oneArray_ok n v).arr.filled.keeps hk rfl, rfl⟩

theorem fresh_real (n : ℕ) (hn : n < 2 ^ 31 - 1) (v : ℕ → C) : ∃ (o : RFFT) (w : World C),
    After (realFFT C thr) intLen realOK (twoArrays n v) n o w ∧ Filled w.heap (Ptr.base 1) n ∧
      Filled w.heap (Ptr.base 2) n := by
  have hw := (twoArrays_ok n v).wf
  obtain ⟨o, w, ha, hk⟩ := After.exists (realFFTSpec C thr) (n0 := n) (ops := []) hw (by simp [twoArrays])
    (realOK.valid hw) ⟨by omega, by omega⟩ trivial
    (Cls.use_noFail (X := realFFT C thr) (fun _ h => RFFT.create_noFail (by omega)) (fun _ _ h => RFFT.setup_noFail (by omega)) _ (by omega) _ (by simp [Op.lenNat]))
  exact ⟨o, w, ha, (twoArrays_arr n v 1 (Or.inl rfl)).filled.keeps hk (by simp [twoArrays, Ptr.base]),
    (twoArrays_arr n v 2 (Or.inr rfl)).filled.keeps hk (by simp [twoArrays, Ptr.base])⟩

theorem fresh_dct (n : ℕ) (hn : n < 2 ^ 30) (v : ℕ → C) : ∃ (o : DCT) (w : World C),
    After (realDCT C thr) dctLen dctOK (oneArray n v) n o w ∧ Filled w.heap (Ptr.base 1) n := by
  have hw := (oneArray_ok n v).wf
  obtain ⟨o, w, ha, hk⟩ := After.exists (realDCTSpec C thr) (n0 := n) (ops := []) hw (Set.finite_singleton 1)
    (dctOK.valid hw) ⟨by omega, by omega⟩ trivial
    (Cls.use_noFail (X := realDCT C thr) (fun _ h => DCT.create_noFail h) (fun _ _ h => DCT.setup_noFail h) _ (by omega) _ (by simp [Op.lenNat]))
  exact ⟨o, w, ha, (oneArray_ok n v).arr.filled.keeps hk rfl⟩

end OTFFT.Props
