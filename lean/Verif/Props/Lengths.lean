/-
C44 (negative lengths) and C45 (lengths whose size computations overflow): what the constructors and `setup` do with every
value of type `int`. All theorems hold for any arithmetic.
-/
import Verif.Proof.Lengths
import Verif.Props.Raw
import Verif.Props.Edge

namespace OTFFT.Props
open OTFFT

variable {F C : Type} [DArith F] [CArith F C] [Inhabited C] {thr : Thr} {w0 w : World C}

/-- the values of type `int` -/
def IsInt (n : ℤ) : Prop := -2 ^ 31 ≤ n ∧ n < 2 ^ 31

/-- Constructing an object of this length always fails with an exception: there is no undefined behaviour, there is an
execution, and every execution throws, leaving the blocks of the client (and no others) with their contents. -/
def NeverCreated (X : Cls C) (w : World C) (n : ℤ) : Prop :=
  ¬ (X.create n).MayUB w ∧ (∃ w', (X.create n).Runs w none w') ∧
    ∀ r w', (X.create n).Runs w r w' → r = none ∧ w'.live = w.live ∧ ∀ b ∈ w.live, ∀ i, w'.heap (b, i) = w.heap (b, i)

/-- The same for `setup` on an existing object (the client's blocks are those of `w0`). -/
def NeverSetUp (X : Cls C) (o : X.Obj) (w0 w : World C) (n : ℤ) : Prop :=
  ¬ (X.setup o n).MayUB w ∧ (∃ o' w', (X.setup o n).Runs w (o', true) w') ∧
    ∀ o' thrown w', (X.setup o n).Runs w (o', thrown) w' → thrown = true ∧ w0.live ⊆ w'.live ∧
      ∀ b ∈ w0.live, ∀ i, w'.heap (b, i) = w.heap (b, i)

theorem neverCreated {C : Type} {X : Cls C} (S : ClsSpec X) {w : World C} (hw : w.WF) {n : ℤ} (hn : S.SetupOK n)
    (h : (X.create n).All fun r => r = none) : NeverCreated X w n := by
  have sp := S.create_spec n hn (Owned.start hw)
  have e : ∀ r w', (X.create n).Runs w r w' → r = none := fun r w' hr => h.runs hr
  refine ⟨Act.wp_noUB sp, ?_, fun r w' hr => ?_⟩
  · obtain ⟨w', hr, -⟩ := Act.wp_exists_fail sp
    have := e _ _ hr
    rw [this] at hr
    exact ⟨w', hr⟩
  · obtain rfl := e r w' hr
    obtain ⟨hs, ho⟩ := Act.wp_runs sp hr
    have ho : Owned w.live [] w' := ho
    refine ⟨rfl, by rw [ho.live]; simp, fun b hb i => hs (b, i) hb⟩

theorem neverSetUp {C : Type} {X : Cls C} (S : ClsSpec X) {w0 w : World C} {o : X.Obj} {n : ℤ} (hn : S.SetupOK n)
    (ow : Owned w0.live (S.blocks o) w) (h : (X.setup o n).All fun r => r.2 = true) : NeverSetUp X o w0 w n := by
  have sp := S.setup_spec o n hn ow
  have e : ∀ r w', (X.setup o n).Runs w r w' → r.2 = true := fun r w' hr => h.runs hr
  refine ⟨Act.wp_noUB sp, ?_, fun o' t w' hr => ?_⟩
  · obtain ⟨w', hr, -⟩ := Act.wp_exists_fail sp
    have := e _ _ hr
    refine ⟨(X.setup o n).onFail.1, w', ?_⟩
    rw [← this]
    exact hr
  · obtain ⟨ho, hs, -⟩ := Act.wp_runs sp hr
    exact ⟨e _ _ hr, by rw [ho.live]; exact Set.subset_union_left, fun b hb i => hs (b, i) hb⟩

/-- C44: a negative length for `ComplexFFT`: the constructor, and `setup` after any history, always throw. -/
theorem C44_complex (hw : w0.WF) {n : ℤ} (hn : IsInt n) (h0 : n < 0) :
    NeverCreated (complexFFT C thr) w0 n ∧
    ∀ (m : ℕ) (o : FFT) (w : World C), After (complexFFT C thr) intLen complexOK w0 m o w →
      NeverSetUp (complexFFT C thr) o w0 w n :=
  have hi : intLen n := ⟨hn.1, by omega⟩
  ⟨neverCreated (complexFFTSpec C thr) hw hi (FFT.create_neg h0),
    fun _ o _ ha => neverSetUp (complexFFTSpec C thr) hi (ha.complex hw).1 (FFT.setup_neg o h0)⟩

/-- C44 for `RealDCT`. -/
theorem C44_dct (hw : w0.WF) {n : ℤ} (hn : IsInt n) (h0 : n < 0) :
    NeverCreated (realDCT C thr) w0 n ∧
    ∀ (m : ℕ) (o : DCT) (w : World C), After (realDCT C thr) dctLen dctOK w0 m o w →
      NeverSetUp (realDCT C thr) o w0 w n :=
  have hi : dctLen n := ⟨hn.1, by omega⟩
  ⟨neverCreated (realDCTSpec C thr) hw hi (DCT.create_neg h0),
    fun _ o _ ha => neverSetUp (realDCTSpec C thr) hi (ha.dct hw).1 (DCT.setup_neg o h0)⟩

/-- C44 for `RealFFT`: lengths below −1 always throw. -/
theorem C44_real (hw : w0.WF) {n : ℤ} (hn : IsInt n) (h0 : n < -1) :
    NeverCreated (realFFT C thr) w0 n ∧
    ∀ (m : ℕ) (o : RFFT) (w : World C), After (realFFT C thr) intLen realOK w0 m o w →
      NeverSetUp (realFFT C thr) o w0 w n :=
  have hi : intLen n := ⟨hn.1, by omega⟩
  ⟨neverCreated (realFFTSpec C thr) hw hi (RFFT.create_neg h0),
    fun _ o _ ha => neverSetUp (realFFTSpec C thr) hi (ha.real hw).1 (RFFT.setup_neg o h0)⟩

/-- C44: length −1 is accepted by `RealFFT`: the constructor has no undefined behaviour and succeeds unless an allocation
fails, and the transforms of the object do nothing. -/
theorem C44_real_minus_one (hw : w0.WF) :
    ¬ ((realFFT C thr).create (-1)).MayUB w0 ∧ ((realFFT C thr).create (-1)).NoFail (fun r => r.isSome = true) ∧
    ∀ (o : RFFT) (w : World C), ((realFFT C thr).create (-1)).Runs w0 (some o) w → ∀ e x y, Inert ((realFFT C thr).call o (e, x, y)) := by
  have hi : intLen (-1) := ⟨by omega, by omega⟩
  have sp := (realFFTSpec C thr).create_spec (-1) hi (Owned.start hw)
  refine ⟨Act.wp_noUB sp, RFFT.create_noFail (by omega), fun o w hr e x y => ?_⟩
  have hr := (Act.wp_runs sp hr).2.2
  refine Good.inert fun h => ?_
  show Good ∅ ∅ (o.call C thr e x y) h h
  rw [RFFT.call_eq]
  unfold RFFT.invWith RFFT.fwdWith
  have hl : o.N = 0 := hr.len
  simp only [hl]
  cases e.isInv <;> exact .nil

/-- C44 for `FFT0`: lengths below −1 always throw … -/
theorem C44_fft0 (hw : w0.WF) {n : ℤ} (hn : IsInt n) (h0 : n < -1) :
    NeverCreated (rawFFT C thr) w0 n ∧
    ∀ (m : ℕ) (o : FFT0) (w : World C), After (rawFFT C thr) intLen rawFFTOK w0 m o w →
      NeverSetUp (rawFFT C thr) o w0 w n :=
  have hi : intLen n := ⟨hn.1, by omega⟩
  ⟨neverCreated (rawFFTSpec C thr) hw hi (FFT0.create_neg h0),
    fun _ o _ ha => neverSetUp (rawFFTSpec C thr) hi (ha.rawFFT hw).1 (FFT0.setup_neg o h0)⟩

/-- C44 for `DCT0`. -/
theorem C44_dct0 (hw : w0.WF) {n : ℤ} (hn : IsInt n) (h0 : n < -1) :
    NeverCreated (rawDCT C thr) w0 n ∧
    ∀ (m : ℕ) (o : DCT0) (w : World C), After (rawDCT C thr) dctLen rawDCTOK w0 m o w →
      NeverSetUp (rawDCT C thr) o w0 w n :=
  have hi : dctLen n := ⟨hn.1, by omega⟩
  ⟨neverCreated (rawDCTSpec C thr) hw hi (DCT0.create_neg h0),
    fun _ o _ ha => neverSetUp (rawDCTSpec C thr) hi (ha.rawDCT hw).1 (DCT0.setup_neg o h0)⟩

/-! ### C45 -/

/-- Among all values of type `int`, those for which the constructor has undefined behaviour are exactly those satisfying
`bad`, and the same for `setup` after any history. -/
def UndefinedIff (X : Cls C) (setupOK : ℤ → Prop) (callOK : ℕ → X.Call → Heap C → Prop) (w0 : World C)
    (bad : ℤ → Prop) : Prop :=
  ∀ n, IsInt n → ((X.create n).MayUB w0 ↔ bad n) ∧
    ∀ (m : ℕ) (o : X.Obj) (w : World C), After X setupOK callOK w0 m o w → ((X.setup o n).MayUB w ↔ bad n)

theorem undefinedIff {C : Type} {X : Cls C} (S : ClsSpec X) {callOK : ℕ → X.Call → Heap C → Prop} {w0 : World C} (hw : w0.WF)
    (hc : ∀ n c, callOK n c w0.heap → S.Valid n c w0.live w0.heap) {bad : ℤ → Prop}
    (hb : ∀ n, IsInt n → (S.SetupOK n ↔ ¬ bad n))
    (h1 : ∀ n, IsInt n → bad n → (X.create n).MayUB w0)
    (h2 : ∀ n, IsInt n → bad n → ∀ o w, Owned w0.live (S.blocks o) w → (X.setup o n).MayUB w) :
    UndefinedIff X S.SetupOK callOK w0 bad := by
  intro n hn
  refine ⟨⟨fun u => ?_, h1 n hn⟩, fun m o w ha => ?_⟩
  · by_contra hbad
    exact Act.wp_noUB (S.create_spec n ((hb n hn).2 hbad) (Owned.start hw)) u
  · have ow := (After.spec S hw hc ha).1
    refine ⟨fun u => ?_, fun hbad => h2 n hn hbad o w ow⟩
    by_contra hbad
    exact Act.wp_noUB (S.setup_spec o n ((hb n hn).2 hbad) ow) u

/-- C45 for `ComplexFFT`: only the largest `int` overflows (`n + 1`). -/
theorem C45_complex (hw : w0.WF) (hf : w0.live.Finite) :
    UndefinedIff (complexFFT C thr) intLen complexOK w0 (fun n => n = 2 ^ 31 - 1) :=
  undefinedIff (complexFFTSpec C thr) hw (complexOK.valid hw)
    (fun n hn => ⟨fun h => by have := h.2; omega, fun h => ⟨hn.1, by have := hn.2; omega⟩⟩)
    (fun n _ h => by
      show (FFT.create C thr n).MayUB w0
      unfold FFT.create
      exact Act.mayUB_left (FFT0.setup_overflow (rest := []) hf h (Owned.start hw) (by simp [FFT0.blocks, FFT0.empty])))
    (fun n _ h o w ow => FFT.setup_overflow (rest := []) hf h ow (by simp [complexFFTSpec]))

/-- C45 for `RealFFT`. -/
theorem C45_real (hw : w0.WF) (hf : w0.live.Finite) :
    UndefinedIff (realFFT C thr) intLen realOK w0 (fun n => n = 2 ^ 31 - 1) :=
  undefinedIff (realFFTSpec C thr) hw (realOK.valid hw)
    (fun n hn => ⟨fun h => by have := h.2; omega, fun h => ⟨hn.1, by have := hn.2; omega⟩⟩)
    (fun n _ h => by
      show (RFFT.create C thr n).MayUB w0
      unfold RFFT.create
      exact Act.mayUB_left (RFFT.setup_overflow (rest := []) hf h (Owned.start hw) (by simp [RFFT.blocks, RFFT.empty, FFT0.blocks, FFT0.empty])))
    (fun n _ h o w ow => RFFT.setup_overflow (rest := []) hf h ow (by simp [realFFTSpec]))

/-- C45 for `RealDCT`: every length from 2^30 on overflows (`2 * n`), in particular 2^30 itself, which the other classes
handle. -/
theorem C45_dct (hw : w0.WF) (hf : w0.live.Finite) :
    UndefinedIff (realDCT C thr) dctLen dctOK w0 (fun n => 2 ^ 30 ≤ n) :=
  undefinedIff (realDCTSpec C thr) hw (dctOK.valid hw)
    (fun n hn => ⟨fun h => by have := h.2; omega, fun h => ⟨hn.1, by omega⟩⟩)
    (fun n hn h => by
      show (DCT.create C thr n).MayUB w0
      unfold DCT.create
      exact Act.mayUB_left (DCT.setup_overflow (rest := []) hf h hn.2 (Owned.start hw)
        (by simp [DCT.blocks, DCT.empty, DCT0.blocks, DCT0.empty, RFFT.blocks, RFFT.empty, FFT0.blocks, FFT0.empty])))
    (fun n hn h o w ow => DCT.setup_overflow (rest := []) hf h hn.2 ow (by simp [realDCTSpec]))

/-- C45 for Bluestein objects: every length above 2^29 overflows (`L *= 2`). -/
theorem C45_bluestein (hw : w0.WF) :
    UndefinedIff (bluesteinFFT C thr) blueLen blueOK w0 (fun n => 2 ^ 29 < n) :=
  undefinedIff (bluesteinSpec C thr) hw (blueOK.valid hw)
    (fun n hn => ⟨fun h => by have h : n ≤ 2 ^ 29 := h; omega, fun h => by show n ≤ 2 ^ 29; omega⟩)
    (fun n _ h => by
      show (Bluestein.create C thr n).MayUB w0
      unfold Bluestein.create
      exact Act.mayUB_left (Bluestein.setup_overflow h w0))
    (fun n _ h o w _ => Bluestein.setup_overflow h w)

/-- C45 for `FFT0`. -/
theorem C45_fft0 (hw : w0.WF) (hf : w0.live.Finite) :
    UndefinedIff (rawFFT C thr) intLen rawFFTOK w0 (fun n => n = 2 ^ 31 - 1) :=
  undefinedIff (rawFFTSpec C thr) hw (rawFFTOK.valid hw)
    (fun n hn => ⟨fun h => by have := h.2; omega, fun h => ⟨hn.1, by have := hn.2; omega⟩⟩)
    (fun n _ h => by
      show (FFT0.create C thr n).MayUB w0
      unfold FFT0.create
      exact Act.mayUB_left (FFT0.setup_overflow (rest := []) hf h (Owned.start hw) (by simp [FFT0.blocks, FFT0.empty])))
    (fun n _ h o w ow => FFT0.setup_overflow (rest := []) hf h ow (by simp [rawFFTSpec]))

/-- C45 for `DCT0`. -/
theorem C45_dct0 (hw : w0.WF) (hf : w0.live.Finite) :
    UndefinedIff (rawDCT C thr) dctLen rawDCTOK w0 (fun n => 2 ^ 30 ≤ n) :=
  undefinedIff (rawDCTSpec C thr) hw (rawDCTOK.valid hw)
    (fun n hn => ⟨fun h => by have := h.2; omega, fun h => ⟨hn.1, by omega⟩⟩)
    (fun n hn h => by
      show (DCT0.create C thr n).MayUB w0
      unfold DCT0.create
      exact Act.mayUB_left (DCT0.setup_overflow (rest := []) hf h hn.2 (Owned.start hw)
        (by simp [DCT0.blocks, DCT0.empty, RFFT.blocks, RFFT.empty, FFT0.blocks, FFT0.empty])))
    (fun n hn h o w ow => DCT0.setup_overflow (rest := []) hf h hn.2 ow (by simp [rawDCTSpec]))

/-! ### The hypotheses are met -/

example (v : ℕ → C) : NeverCreated (complexFFT C thr) (oneArray 8 v) (-8) :=
  (C44_complex (oneArray_ok 8 v).wf ⟨by omega, by omega⟩ (by omega)).1

/-- an object of length 12 that is then set up with a negative length -/
example (v : ℕ → C) : ∃ (o : FFT) (w : World C), After (complexFFT C thr) intLen complexOK (oneArray 12 v) 12 o w ∧
    NeverSetUp (complexFFT C thr) o (oneArray 12 v) w (-3) := by
  obtain ⟨o, w, ha, -⟩ := fresh_complex (thr := thr) 12 (by omega) v
  exact ⟨o, w, ha, (C44_complex (oneArray_ok 12 v).wf ⟨by omega, by omega⟩ (by omega)).2 _ _ _ ha⟩

/-- the cosine transform of length 2^30, but not the complex one -/
example (v : ℕ → C) : ((realDCT C thr).create (2 ^ 30)).MayUB (oneArray 8 v) ∧
    ¬ ((complexFFT C thr).create (2 ^ 30)).MayUB (oneArray 8 v) :=
  ⟨(C45_dct (oneArray_ok 8 v).wf (by simp [oneArray]) _ ⟨by omega, by omega⟩).1.2 (by omega),
    fun h => absurd ((C45_complex (oneArray_ok 8 v).wf (by simp [oneArray]) _ ⟨by omega, by omega⟩).1.1 h) (by omega)⟩

end OTFFT.Props
