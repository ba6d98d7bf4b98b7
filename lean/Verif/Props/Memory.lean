/-
C07, C10, C11, C30, C31: memory, schedules and histories. All theorems hold for any arithmetic, in particular
for IEEE doubles, and for all four classes.
-/
import Verif.Proof.History
import Verif.Props.Bluestein

namespace OTFFT.Props
open OTFFT

variable {F C : Type} [DArith F] [CArith F C] {thr : Thr}

/-! ### C07: aliases -/

/-- `fwd` and `fwdn`, `inv` and `inv0` are the same call -/
def Entry.alias : Entry → Entry
  | .fwdn => .fwd
  | .inv0 => .inv
  | e => e

def DctEntry.alias : DctEntry → DctEntry
  | .fwdn => .fwd
  | .inv0 => .inv
  | e => e

/-- replace the entry of every call -/
def mapCalls {C A : Type} (f : A → A) (ops : List (Op C A)) : List (Op C A) :=
  ops.map fun op => match op with
    | .call c => .call (f c)
    | op => op

theorem session_mapCalls {C : Type} (X : Cls C) (f : X.Call → X.Call) (hf : ∀ o c, X.call o (f c) = X.call o c)
    (ops : List (Op C X.Call)) : ∀ o ok, X.session o ok (mapCalls f ops) = X.session o ok ops := by
  induction ops with
  | nil => intro _ _; rfl
  | cons op ops ih =>
    intro o ok
    cases op with
    | setup n => show (X.setup o n >>= fun r => _) = (X.setup o n >>= fun r => _); simp only [mapCalls] at ih; simp only [ih]
    | call c =>
      show (if ok = true then (Act.exec (X.call o (f c)) >>= fun _ => X.session o ok (mapCalls f ops)) else _) =
        (if ok = true then (Act.exec (X.call o c) >>= fun _ => X.session o ok ops) else _)
      rw [hf]; simp only [mapCalls] at ih; simp only [mapCalls, ih]
    | store p v => show (Act.exec _ >>= fun _ => _) = (Act.exec _ >>= fun _ => _); simp only [mapCalls] at ih; simp only [ih]

theorem lifetime_mapCalls {C : Type} (X : Cls C) (f : X.Call → X.Call) (hf : ∀ o c, X.call o (f c) = X.call o c)
    (n : ℕ) (ops : List (Op C X.Call)) : X.lifetime n (mapCalls f ops) = X.lifetime n ops := by
  unfold Cls.lifetime Cls.use
  simp only [session_mapCalls X f hf]

/-- C07: exchanging `fwdn` for `fwd` and `inv0` for `inv` anywhere in a client program leaves the program
the same: same executions, same memory. -/
theorem C07_complex (n : ℕ) (ops : List (Op C (Entry × Ptr))) :
    (complexFFT C thr).lifetime n (mapCalls (fun c => (Entry.alias c.1, c.2)) ops) =
      (complexFFT C thr).lifetime n ops :=
  lifetime_mapCalls (complexFFT C thr) _ (fun o c => by obtain ⟨e, x⟩ := c; cases e <;> rfl) n ops

theorem C07_real (n : ℕ) (ops : List (Op C (Entry × Ptr × Ptr))) :
    (realFFT C thr).lifetime n (mapCalls (fun c => (Entry.alias c.1, c.2)) ops) =
      (realFFT C thr).lifetime n ops :=
  lifetime_mapCalls (realFFT C thr) _ (fun o c => by obtain ⟨e, x⟩ := c; cases e <;> rfl) n ops

theorem C07_dct (n : ℕ) (ops : List (Op C (DctEntry × Ptr))) :
    (realDCT C thr).lifetime n (mapCalls (fun c => (DctEntry.alias c.1, c.2)) ops) =
      (realDCT C thr).lifetime n ops :=
  lifetime_mapCalls (realDCT C thr) _ (fun o c => by obtain ⟨e, x⟩ := c; cases e <;> rfl) n ops

theorem C07_bluestein (n : ℕ) (ops : List (Op C (Entry × Ptr))) :
    (bluesteinFFT C thr).lifetime n (mapCalls (fun c => (Entry.alias c.1, c.2)) ops) =
      (bluesteinFFT C thr).lifetime n ops :=
  lifetime_mapCalls (bluesteinFFT C thr) _ (fun o c => by obtain ⟨e, x⟩ := c; cases e <;> rfl) n ops

/-! ### C10: footprints

`w0` is the memory before the object was constructed, `w` the memory after an arbitrary history: the blocks
of the object are `w.live \ w0.live`. -/

variable [Inhabited C] {w0 w : World C} {n : ℕ}

/-- C10: a complex transform reads only `x[0..n)` and blocks of the object, and writes only `x[0..n)` and one
block of the object, its work area of `n` cells. -/
theorem C10_complex {o : FFT} (hw : w0.WF)
    (ha : After (complexFFT C thr) intLen complexOK w0 n o w) :
    ∃ b, ∀ e x, complexOK n (e, x) w.heap → x.buf ∈ w0.live → b ∈ w.live \ w0.live ∧
      Confined ((complexFFT C thr).call o (e, x)) w.heap
        (Region x n ∪ {l | l.1 ∈ w.live \ w0.live}) (Region x n ∪ Region (Ptr.base b) n) := by
  obtain ⟨ow, hr, _⟩ := ha.complex hw
  obtain ⟨b, hb, hy, _⟩ := hr.work
  refine ⟨b, fun e x hx hu => ⟨(ow.mem_blocks b).1 (by simp [FFT.blocks, hb]), ?_⟩⟩
  obtain ⟨v, hax⟩ := hx.2.arr
  obtain ⟨h', g, -, -⟩ := FFT.call_good (rest := []) (e := e) hx.1 ow (by simp) hr hax (fun h => ow.disj _ h hu)
  refine g.confined ?_ (by rw [hy]; exact fun _ h => h)
  rintro l (h | h | h) hn
  · exact Or.inl h
  · exact absurd (ow.wf.dead l (h ▸ ow.wf.null)) hn
  · exact Or.inr ((ow.mem_blocks _).1 h)

/-- C10: a real transform writes only its output array `y[0..n)`; the inverse ones also overwrite `x[0..n)`.
It reads only the two arrays and blocks of the object. -/
theorem C10_real {o : RFFT} {e : Entry} {x y : Ptr} (hw : w0.WF)
    (ha : After (realFFT C thr) intLen realOK w0 n o w)
    (hx : realOK n (e, x, y) w.heap) (hux : x.buf ∈ w0.live) (huy : y.buf ∈ w0.live) :
    Confined ((realFFT C thr).call o (e, x, y)) w.heap
      (Region x n ∪ Region y n ∪ {l | l.1 ∈ w.live \ w0.live})
      (match e with
        | .fwd | .fwd0 | .fwdu | .fwdn => Region y n
        | .inv | .inv0 | .invu | .invn => Region x n ∪ Region y n) := by
  obtain ⟨ow, hr, _⟩ := ha.real hw
  obtain ⟨h1, h2, h3, h4, h5⟩ := hx
  obtain ⟨v, hax⟩ := h2.arr
  rw [realNeed_eq] at hax
  obtain ⟨h', g, -, -⟩ := RFFT.call_good (e := e) h1 hr hax h3 h4 h5 (ow.wf.buf_ne h1.pos h3)
    (ow.wf.buf_ne h1.pos h4) (fun h => ow.disj _ h hux) (fun h => ow.disj _ h huy)
  refine g.confined ?_ ?_
  · rintro l (h | h | h) hn
    · exact Or.inl h
    · exact absurd (ow.wf.dead l (h ▸ ow.wf.null)) hn
    · exact Or.inr ((ow.mem_blocks _).1 h)
  · intro l hl
    cases e <;> exact hl

/-- C10: a cosine transform writes only `x[0..n)` and two distinct blocks of the object, its work areas of
`n` cells. -/
theorem C10_dct {o : DCT} (hw : w0.WF) (ha : After (realDCT C thr) dctLen dctOK w0 n o w) :
    ∃ b1 b2, b1 ≠ b2 ∧ ∀ e x, dctOK n (e, x) w.heap → x.buf ∈ w0.live →
      b1 ∈ w.live \ w0.live ∧ b2 ∈ w.live \ w0.live ∧
      Confined ((realDCT C thr).call o (e, x)) w.heap
        (Region x n ∪ {l | l.1 ∈ w.live \ w0.live})
        (Region x n ∪ Region (Ptr.base b1) n ∪ Region (Ptr.base b2) n) := by
  obtain ⟨ow, hr, _⟩ := ha.dct hw
  obtain ⟨b1, e1, y1, _⟩ := hr.work1
  obtain ⟨b2, e2, y2, _⟩ := hr.work2
  obtain ⟨m1, m2, -, -, hne, -⟩ := hr.bufs ow.nodup
  rw [y1] at m1 hne
  rw [y2] at m2 hne
  refine ⟨b1, b2, hne, fun e x hx hu => ⟨(ow.mem_blocks _).1 m1, (ow.mem_blocks _).1 m2, ?_⟩⟩
  obtain ⟨v, hax⟩ := hx.2.arr
  obtain ⟨h', g, -, -⟩ := DCT.call_good (e := e) hx.1 ow hr hax (fun h => ow.disj _ h hu)
  refine g.confined ?_ (by rw [y1, y2]; exact fun _ h => h)
  rintro l (h | h | h) hn
  · exact Or.inl h
  · exact absurd (ow.wf.dead l (h ▸ ow.wf.null)) hn
  · exact Or.inr ((ow.mem_blocks _).1 h)

/-- C10: a Bluestein transform writes only `x[0..n)` and the first `L` cells of three blocks of the object,
where `L` is the padded length. -/
theorem C10_bluestein {o : Bluestein} (hw : w0.WF)
    (ha : After (bluesteinFFT C thr) blueLen blueOK w0 n o w) (hn : 1 ≤ n) :
    ∃ b1 b2 b3 L, L < 4 * n ∧ b1 ∈ w.live \ w0.live ∧ b2 ∈ w.live \ w0.live ∧ b3 ∈ w.live \ w0.live ∧
      b1 ≠ b2 ∧ b1 ≠ b3 ∧ b2 ≠ b3 ∧ ∀ e x, blueOK n (e, x) w.heap → x.buf ∈ w0.live →
      Confined ((bluesteinFFT C thr).call o (e, x)) w.heap
        (Region x n ∪ {l | l.1 ∈ w.live \ w0.live})
        (Region x n ∪ (Region (Ptr.base b1) L ∪ Region (Ptr.base b2) L ∪ Region (Ptr.base b3) L)) := by
  obtain ⟨ow, hr, _⟩ := ha.blue hw
  have hr := hr hn
  obtain ⟨b1, e1, y1, _⟩ := hr.work1
  obtain ⟨b2, e2, y2, _⟩ := hr.work2
  obtain ⟨b3, e3, y3, _⟩ := hr.fft.work
  obtain ⟨m1, m2, -, m3, hne, -, -, h13, h23, -⟩ := hr.bufs ow.nodup
  have m3' : b3 ∈ o.fft.blocks := by simp [FFT.blocks, e3]
  rw [y1] at m1 hne h13
  rw [y2] at m2 hne h23
  refine ⟨b1, b2, b3, o.L, ?_, (ow.mem_blocks _).1 m1, (ow.mem_blocks _).1 m2, (ow.mem_blocks _).1 (m3 _ m3'), hne,
    fun h => h13 (by rw [h]; exact m3'), fun h => h23 (by rw [h]; exact m3'), fun e x hx hu => ?_⟩
  · obtain ⟨k, -, hk, hL, hmin⟩ := blueLoop_spec _ _ _ hr.pad
    rcases Nat.eq_zero_or_pos k with rfl | h0
    · rw [hk]; omega
    · have := hmin (k - 1) (Nat.zero_le _) (by omega)
      have e : 2 ^ k = 2 * 2 ^ (k - 1) := by rw [← pow_succ']; congr 1; omega
      omega
  · obtain ⟨v, hax⟩ := hx.2.2.arr
    obtain ⟨h', g, -, -⟩ := Bluestein.call_good (e := e) hn hx.2.1 ow hr hax (fun h => ow.disj _ h hu)
    refine g.confined ?_ (by rw [y1, y2, y3]; exact fun _ h => h)
    rintro l (h | h | h) hn
    · exact Or.inl h
    · exact absurd (ow.wf.dead l (h ▸ ow.wf.null)) hn
    · exact Or.inr ((ow.mem_blocks _).1 h)

/-! ### C11: schedules -/

/-- C11: after any history, every schedule of the OpenMP loops of a transform ends in one and the same memory,
which is also the memory the sequential execution of all iterations ends in. -/
theorem C11_complex {o : FFT} {e : Entry} {x : Ptr} (hw : w0.WF)
    (ha : After (complexFFT C thr) intLen complexOK w0 n o w)
    (hx : complexOK n (e, x) w.heap) (hu : x.buf ∈ w0.live) :
    ∃ h', Deterministic ((complexFFT C thr).call o (e, x)) w.heap h' := by
  obtain ⟨ow, hr, _⟩ := ha.complex hw
  obtain ⟨v, hax⟩ := hx.2.arr
  obtain ⟨h', g, -, -⟩ := FFT.call_good (rest := []) (e := e) hx.1 ow (by simp) hr hax (fun h => ow.disj _ h hu)
  exact ⟨h', g.deterministic⟩

theorem C11_real {o : RFFT} {e : Entry} {x y : Ptr} (hw : w0.WF)
    (ha : After (realFFT C thr) intLen realOK w0 n o w)
    (hx : realOK n (e, x, y) w.heap) (hux : x.buf ∈ w0.live) (huy : y.buf ∈ w0.live) :
    ∃ h', Deterministic ((realFFT C thr).call o (e, x, y)) w.heap h' := by
  obtain ⟨ow, hr, _⟩ := ha.real hw
  obtain ⟨h1, h2, h3, h4, h5⟩ := hx
  obtain ⟨v, hax⟩ := h2.arr
  rw [realNeed_eq] at hax
  obtain ⟨h', g, -, -⟩ := RFFT.call_good (e := e) h1 hr hax h3 h4 h5 (ow.wf.buf_ne h1.pos h3)
    (ow.wf.buf_ne h1.pos h4) (fun h => ow.disj _ h hux) (fun h => ow.disj _ h huy)
  exact ⟨h', g.deterministic⟩

theorem C11_dct {o : DCT} {e : DctEntry} {x : Ptr} (hw : w0.WF)
    (ha : After (realDCT C thr) dctLen dctOK w0 n o w)
    (hx : dctOK n (e, x) w.heap) (hu : x.buf ∈ w0.live) :
    ∃ h', Deterministic ((realDCT C thr).call o (e, x)) w.heap h' := by
  obtain ⟨ow, hr, _⟩ := ha.dct hw
  obtain ⟨v, hax⟩ := hx.2.arr
  obtain ⟨h', g, -, -⟩ := DCT.call_good (e := e) hx.1 ow hr hax (fun h => ow.disj _ h hu)
  exact ⟨h', g.deterministic⟩

theorem C11_bluestein {o : Bluestein} {e : Entry} {x : Ptr} (hw : w0.WF)
    (ha : After (bluesteinFFT C thr) blueLen blueOK w0 n o w)
    (hx : blueOK n (e, x) w.heap) (hu : x.buf ∈ w0.live) :
    ∃ h', Deterministic ((bluesteinFFT C thr).call o (e, x)) w.heap h' := by
  obtain ⟨ow, hr, _⟩ := ha.blue hw
  obtain ⟨v, hax⟩ := hx.2.2.arr
  obtain ⟨h', g, -, -⟩ := Bluestein.call_good (e := e) hx.1 hx.2.1 ow (hr hx.1) hax (fun h => ow.disj _ h hu)
  exact ⟨h', g.deterministic⟩

/-! ### C30: the history does not matter

`out` is chosen before the history, the memory and the schedule: whatever was done with the object before the
last `setup` (or constructor call) with length `n`, a transform leaves `out e v` where the client array held
`v`, and changes no other cell that existed before the object was made. With `ops = []` the object is fresh. -/

/-- C30 for `ComplexFFT`. -/
theorem C30_complex (C : Type) [CArith F C] [Inhabited C] (thr : Thr) (n : ℕ) :
    ∃ out : Entry → (ℕ → C) → ℕ → C, ∀ (w0 w : World C) (o : FFT) (e : Entry) (x : Ptr) (v : ℕ → C), w0.WF →
      After (complexFFT C thr) intLen complexOK w0 n o w → ValidLen n → Arr w.heap x n v →
      x.buf ∈ w0.live →
      AllSched (fun h' => Arr h' x n (out e v) ∧ ∀ l : Loc, l.1 ∈ w0.live → l ∉ Region x n → h' l = w.heap l)
        (((complexFFT C thr).call o (e, x)).start w.heap) := by
  refine ⟨fun e v => fftOut C thr e.isInv e.mode n v, fun w0 w o e x v hw ha hn hax hu => ?_⟩
  obtain ⟨ow, hr, _⟩ := ha.complex hw
  obtain ⟨h', g, a, f⟩ := FFT.call_good (rest := []) (e := e) hn ow (by simp) hr hax (fun h => ow.disj _ h hu)
  refine g.allSched.mono ?_
  rintro _ rfl
  refine ⟨a, fun l hl hx => f l hx ?_⟩
  rintro ⟨i, _, rfl⟩
  exact ow.disj _ hr.y_mem hl

/-- C30 for `RealFFT`; `need` = what the transform reads of `x`. -/
theorem C30_real (C : Type) [CArith F C] [Inhabited C] (thr : Thr) (n : ℕ) :
    ∃ out : Entry → (ℕ → C) → ℕ → C, ∀ (w0 w : World C) (o : RFFT) (e : Entry) (x y : Ptr) (v : ℕ → C), w0.WF →
      After (realFFT C thr) intLen realOK w0 n o w → realOK n (e, x, y) w.heap →
      Arr w.heap x (realNeed e n) v → x.buf ∈ w0.live → y.buf ∈ w0.live →
      AllSched (fun h' => Arr h' y n (out e v) ∧ ∀ l : Loc, l ∉ Region x n ∪ Region y n → h' l = w.heap l)
        (((realFFT C thr).call o (e, x, y)).start w.heap) := by
  refine ⟨fun e v => rfftOut C thr e n v, fun w0 w o e x y v hw ha hx hax hux huy => ?_⟩
  obtain ⟨ow, hr, _⟩ := ha.real hw
  obtain ⟨h1, h2, h3, h4, h5⟩ := hx
  rw [realNeed_eq] at hax
  obtain ⟨h', g, a, f⟩ := RFFT.call_good (e := e) h1 hr hax h3 h4 h5 (ow.wf.buf_ne h1.pos h3)
    (ow.wf.buf_ne h1.pos h4) (fun h => ow.disj _ h hux) (fun h => ow.disj _ h huy)
  refine g.allSched.mono ?_
  rintro _ rfl
  exact ⟨a, fun l hl => f l fun h => hl (RFFT.dirty_sub _ _ _ _ h)⟩

/-- C30 for `RealDCT`. -/
theorem C30_dct (C : Type) [CArith F C] [Inhabited C] (thr : Thr) (n : ℕ) :
    ∃ out : DctEntry → (ℕ → C) → ℕ → C, ∀ (w0 w : World C) (o : DCT) (e : DctEntry) (x : Ptr) (v : ℕ → C), w0.WF →
      After (realDCT C thr) dctLen dctOK w0 n o w → RealLen n → Arr w.heap x n v → x.buf ∈ w0.live →
      AllSched (fun h' => Arr h' x n (out e v) ∧ ∀ l : Loc, l.1 ∈ w0.live → l ∉ Region x n → h' l = w.heap l)
        (((realDCT C thr).call o (e, x)).start w.heap) := by
  refine ⟨fun e v => dctOut C thr e n v, fun w0 w o e x v hw ha hn hax hu => ?_⟩
  obtain ⟨ow, hr, _⟩ := ha.dct hw
  obtain ⟨h', g, a, f⟩ := DCT.call_good (e := e) hn ow hr hax (fun h => ow.disj _ h hu)
  obtain ⟨m1, m2, -⟩ := hr.bufs ow.nodup
  refine g.allSched.mono ?_
  rintro _ rfl
  refine ⟨a, fun l hl hx => f l ?_⟩
  rintro ((h | ⟨i, _, rfl⟩) | ⟨i, _, rfl⟩)
  · exact hx h
  · exact ow.disj _ m1 hl
  · exact ow.disj _ m2 hl

/-- C30 for Bluestein objects. -/
theorem C30_bluestein (C : Type) [CArith F C] [Inhabited C] (thr : Thr) (n : ℕ) :
    ∃ out : Entry → (ℕ → C) → ℕ → C, ∀ (w0 w : World C) (o : Bluestein) (e : Entry) (x : Ptr) (v : ℕ → C), w0.WF →
      After (bluesteinFFT C thr) blueLen blueOK w0 n o w → 1 ≤ n → n ≤ 2 ^ 29 → Arr w.heap x n v →
      x.buf ∈ w0.live →
      AllSched (fun h' => Arr h' x n (out e v) ∧ ∀ l : Loc, l.1 ∈ w0.live → l ∉ Region x n → h' l = w.heap l)
        (((bluesteinFFT C thr).call o (e, x)).start w.heap) := by
  refine ⟨fun e v => blueOutF C thr e n v, fun w0 w o e x v hw ha hn h29 hax hu => ?_⟩
  obtain ⟨ow, hr, _⟩ := ha.blue hw
  obtain ⟨h', g, a, f⟩ := Bluestein.call_good (e := e) hn h29 ow (hr hn) hax (fun h => ow.disj _ h hu)
  obtain ⟨m1, m2, -, m3, -⟩ := (hr hn).bufs ow.nodup
  refine g.allSched.mono ?_
  rintro _ rfl
  refine ⟨a, fun l hl hx => f l ?_⟩
  rintro (h | (⟨i, _, rfl⟩ | ⟨i, _, rfl⟩) | ⟨i, _, rfl⟩)
  · exact hx h
  · exact ow.disj _ m1 hl
  · exact ow.disj _ m2 hl
  · exact ow.disj _ (m3 _ (hr hn).fft.y_mem) hl

/-! ### C31: lifetimes -/

/-- The lifetime of an object: whatever `malloc` does (any subset of the allocations may fail) and however
threads are scheduled, there is no undefined behaviour (in particular no free of a block that is not
allocated), and at the end exactly the blocks of the client are allocated. If no length is negative and no
allocation fails, nothing throws. -/
def CleanLifetime {C : Type} (X : Cls C) (n : ℤ) (ops : List (Op C X.Call)) (w : World C) : Prop :=
  ¬ (X.lifetime n ops).MayUB w ∧ (∀ r w', (X.lifetime n ops).Runs w r w' → w'.live = w.live) ∧
  (0 ≤ n → (∀ op ∈ ops, op.lenNat) → (X.lifetime n ops).NoFail (fun ok => ok = true))

theorem cleanLifetime {C : Type} {X : Cls C} (S : ClsSpec X) {callOK : ℕ → X.Call → Heap C → Prop} {w : World C}
    (hw : w.WF) (hc : ∀ n c, callOK n c w.heap → S.Valid n c w.live w.heap) (n : ℤ) (ops : List (Op C X.Call))
    (hn : S.SetupOK n) (hv : ValidOps S.SetupOK callOK w n.toNat ops)
    (hf : 0 ≤ n → (∀ op ∈ ops, op.lenNat) → (X.lifetime n ops).NoFail (fun ok => ok = true)) : CleanLifetime X n ops w := by
  have := S.lifetime n ops hn (Owned.start hw) (hv.toSpec S hw hc ops n.toNat)
  refine ⟨Act.wp_noUB this, fun r w' hr => ?_, hf⟩
  have := (Act.wp_runs this hr).1.live
  rw [this]; simp

/-- C31 -/
theorem C31_complex (hw : w.WF) (n : ℤ) (hn : intLen n) (ops : List (Op C (Entry × Ptr)))
    (hv : ValidOps intLen complexOK w n.toNat ops) : CleanLifetime (complexFFT C thr) n ops w :=
  cleanLifetime (complexFFTSpec C thr) hw (complexOK.valid hw) n ops hn hv (FFT.lifetime_noFail n · ops)

theorem C31_real (hw : w.WF) (n : ℤ) (hn : intLen n) (ops : List (Op C (Entry × Ptr × Ptr)))
    (hv : ValidOps intLen realOK w n.toNat ops) : CleanLifetime (realFFT C thr) n ops w :=
  cleanLifetime (realFFTSpec C thr) hw (realOK.valid hw) n ops hn hv (RFFT.lifetime_noFail n · ops)

theorem C31_dct (hw : w.WF) (n : ℤ) (hn : dctLen n) (ops : List (Op C (DctEntry × Ptr)))
    (hv : ValidOps dctLen dctOK w n.toNat ops) : CleanLifetime (realDCT C thr) n ops w :=
  cleanLifetime (realDCTSpec C thr) hw (dctOK.valid hw) n ops hn hv (DCT.lifetime_noFail n · ops)

theorem C31_bluestein (hw : w.WF) (n : ℤ) (hn : blueLen n) (ops : List (Op C (Entry × Ptr)))
    (hv : ValidOps blueLen blueOK w n.toNat ops) : CleanLifetime (bluesteinFFT C thr) n ops w :=
  cleanLifetime (bluesteinSpec C thr) hw (blueOK.valid hw) n ops hn hv (Bluestein.lifetime_noFail n · ops)

/-! ### The hypotheses are met -/

/-- a client program: construct with 12, transform, `setup(8)`, transform twice, `setup(12)` again -/
def sampleOps : List (Op C (Entry × Ptr)) :=
  [.call (.fwd, Ptr.base 1), .setup 8, .call (.fwd0, Ptr.base 1), .store (Ptr.base 1) default,
    .call (.invu, Ptr.base 1), .setup 12]

theorem sample_valid (v : ℕ → C) : ValidOps intLen complexOK (oneArray 12 v) 12 (sampleOps (C := C)) := by
  have hf : ∀ m ≤ 12, Filled (oneArray 12 v).heap (Ptr.base 1) m := fun m hm i hi =>
    ⟨_, (oneArray_ok 12 v).arr i (by omega)⟩
  refine ⟨⟨validLen_of_le (by omega) (by omega), hf 12 (by omega)⟩, ⟨by omega, by omega⟩,
    ⟨validLen_of_le (by omega) (by omega), hf 8 (by omega)⟩, ?_,
    ⟨validLen_of_le (by omega) (by omega), hf 8 (by omega)⟩, ⟨by omega, by omega⟩, trivial⟩
  exact (hf 12 (by omega)).alloc' 0 (by omega)

theorem sample_lenNat : ∀ op ∈ sampleOps (C := C), op.lenNat := by simp [sampleOps, Op.lenNat]

/-- there is a history as C10, C11 and C30 assume, ending with an object of length 12 whose last `setup` did not
throw, and the client array is still a valid argument -/
example (v : ℕ → C) : ∃ (o : FFT) (w : World C),
    After (complexFFT C thr) intLen complexOK (oneArray 12 v) 12 o w ∧
    complexOK 12 (.fwd, Ptr.base 1) w.heap ∧ (Ptr.base 1).buf ∈ (oneArray 12 v).live := by
  have hw := (oneArray_ok 12 v).wf
  obtain ⟨o, w, ha, hk⟩ := After.exists (complexFFTSpec C thr) (n0 := 12) (ops := sampleOps) hw (Set.finite_singleton 1) (complexOK.valid hw) ⟨by omega, by omega⟩
    (sample_valid v) (Cls.use_noFail (X := complexFFT C thr) (fun _ h => FFT.create_noFail h) (fun _ _ h => FFT.setup_noFail h) _ (by omega) _ sample_lenNat)
  exact ⟨o, w, ha, ⟨validLen_of_le (by omega) (by omega), (oneArray_ok 12 v).arr.filled.keeps hk rfl⟩, rfl⟩

theorem twoArrays_arr {C : Type} (n : ℕ) (v : ℕ → C) (b : ℕ) (hb : b = 1 ∨ b = 2) :
    Arr (twoArrays n v).heap (Ptr.base b) n v := fun i hi => by
  simp only [twoArrays, Ptr.base, Ptr.loc_add, Nat.zero_add, hi, if_true]
  rw [if_pos hb]

theorem twoArrays_realOK {C : Type} {n : ℕ} (v : ℕ → C) (hn : RealLen n) (e : Entry) :
    realOK n (e, Ptr.base 1, Ptr.base 2) (twoArrays n v).heap := by
  have h1 := twoArrays_arr n v 1 (Or.inl rfl)
  have h2 := twoArrays_arr n v 2 (Or.inr rfl)
  refine ⟨hn, fun i hi => ?_, h1.filled.alloc', h2.filled.alloc', Sep.of_buf (by simp [Ptr.base]) _ _⟩
  refine h1.filled i (lt_of_lt_of_le hi ?_)
  rw [realNeed_eq]; exact rfftNeed_le hn

theorem KeepsInit.realOK {C : Type} {E : Set ℕ} {h h' : Heap C} {n : ℕ} {e : Entry} {x y : Ptr} (k : KeepsInit E h h')
    (hx : x.buf ∈ E) (hy : y.buf ∈ E) (r : realOK n (e, x, y) h) : OTFFT.realOK n (e, x, y) h' :=
  ⟨r.1, r.2.1.keeps k hx, r.2.2.1.keeps k hx, r.2.2.2.1.keeps k hy, r.2.2.2.2⟩

/-- the same for `RealFFT` (length 12, then 20, then 12 again) … -/
example (v : ℕ → C) : ∃ (o : RFFT) (w : World C),
    After (realFFT C thr) intLen realOK (twoArrays 20 v) 20 o w ∧
    realOK 20 (.inv, Ptr.base 1, Ptr.base 2) w.heap := by
  have hw := (twoArrays_ok 20 v).wf
  have hl : RealLen 20 := Or.inr ⟨10, rfl, validLen_of_le (by omega) (by omega), by omega⟩
  obtain ⟨o, w, ha, hk⟩ := After.exists (realFFTSpec C thr) (n0 := 12)
    (ops := [.setup 20, .call (.fwd, Ptr.base 1, Ptr.base 2), .call (.inv, Ptr.base 1, Ptr.base 2)]) hw
    (by simp [twoArrays]) (realOK.valid hw) ⟨by omega, by omega⟩
    ⟨⟨by omega, by omega⟩, twoArrays_realOK v hl _, twoArrays_realOK v hl _, trivial⟩
    (Cls.use_noFail (X := realFFT C thr) (fun _ h => RFFT.create_noFail (by omega)) (fun _ _ h => RFFT.setup_noFail (by omega)) _ (by omega) _ (by simp [Op.lenNat]))
  exact ⟨o, w, ha, KeepsInit.realOK hk (by simp [twoArrays, Ptr.base]) (by simp [twoArrays, Ptr.base]) (twoArrays_realOK v hl _)⟩

/-- … for `RealDCT` … -/
example (v : ℕ → C) : ∃ (o : DCT) (w : World C),
    After (realDCT C thr) dctLen dctOK (oneArray 20 v) 20 o w ∧ dctOK 20 (.inv, Ptr.base 1) w.heap := by
  have hw := (oneArray_ok 20 v).wf
  have hl : RealLen 20 := Or.inr ⟨10, rfl, validLen_of_le (by omega) (by omega), by omega⟩
  obtain ⟨o, w, ha, hk⟩ := After.exists (realDCTSpec C thr) (n0 := 12)
    (ops := [.setup 20, .call (.fwd, Ptr.base 1)]) hw
    (Set.finite_singleton 1) (dctOK.valid hw) ⟨by omega, by omega⟩
    ⟨⟨by omega, by omega⟩, ⟨hl, (oneArray_ok 20 v).arr.filled⟩, trivial⟩
    (Cls.use_noFail (X := realDCT C thr) (fun _ h => DCT.create_noFail h) (fun _ _ h => DCT.setup_noFail h) _ (by omega) _ (by simp [Op.lenNat]))
  exact ⟨o, w, ha, hl, (oneArray_ok 20 v).arr.filled.keeps hk rfl⟩

/-- … and for Bluestein objects, with a prime length. -/
example (v : ℕ → C) : ∃ (o : Bluestein) (w : World C),
    After (bluesteinFFT C thr) blueLen blueOK (oneArray 46349 v) 46349 o w ∧
    blueOK 46349 (.inv, Ptr.base 1) w.heap := by
  have hw := (oneArray_ok 46349 v).wf
  obtain ⟨o, w, ha, hk⟩ := After.exists (bluesteinSpec C thr) (n0 := 12)
    (ops := [.setup 46349, .call (.fwd, Ptr.base 1)]) hw
    (Set.finite_singleton 1) (blueOK.valid hw) (by norm_num [bluesteinSpec, blueLen])
    ⟨by norm_num [bluesteinSpec, blueLen], ⟨by omega, by omega, (oneArray_ok 46349 v).arr.filled⟩, trivial⟩
    (Cls.use_noFail (X := bluesteinFFT C thr) (fun _ _ => Bluestein.create_noFail) (fun _ _ _ => Bluestein.setup_noFail) _ (by omega) _ (by simp [Op.lenNat]))
  exact ⟨o, w, ha, by omega, by omega, (oneArray_ok 46349 v).arr.filled.keeps hk rfl⟩

end OTFFT.Props
