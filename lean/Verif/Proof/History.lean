/-
From histories to the state of the object; footprints.
-/
import Verif.Spec.History
import Verif.Proof.BlueObj
import Verif.Proof.DCTObj
import Verif.Proof.RFFTRun

namespace OTFFT

variable {C : Type}

theorem ValidOps.toSpec {X : Cls C} (S : ClsSpec X) {callOK : Nat → X.Call → Heap C → Prop} {w : World C}
    (hw : w.WF) (hc : ∀ n c, callOK n c w.heap → S.Valid n c w.live w.heap) (ops : List (Op C X.Call)) :
    ∀ m, ValidOps S.SetupOK callOK w m ops → S.ValidOps w.live w.heap m ops := by
  induction ops with
  | nil => intro _ _; trivial
  | cons op ops ih =>
    intro m v
    cases op with
    | setup n => exact ⟨v.1, ih _ v.2⟩
    | call c => exact ⟨hc m c v.1, ih m v.2⟩
    | store p u =>
      refine ⟨⟨?_, v.1⟩, ih m v.2⟩
      by_contra h
      exact v.1 (hw.dead _ h)

theorem After.spec {X : Cls C} (S : ClsSpec X) {callOK : Nat → X.Call → Heap C → Prop} {w0 w : World C} {n : Nat}
    {o : X.Obj} (hw : w0.WF) (hc : ∀ n c, callOK n c w0.heap → S.Valid n c w0.live w0.heap)
    (ha : After X S.SetupOK callOK w0 n o w) :
    Owned w0.live (S.blocks o) w ∧ S.Ready o n w.heap ∧ KeepsInit w0.live w0.heap w.heap := by
  obtain ⟨n0, ops, hn, hv, hl, hr⟩ := ha
  have := Act.wp_runs (S.use n0 ops hn (Owned.start hw) (hv.toSpec S hw hc ops n0.toNat)) hr
  exact ⟨this.2.1, hl ▸ this.2.2 rfl, this.1⟩

/-- every valid history with a finite memory has an execution in which nothing throws -/
theorem After.exists {X : Cls C} (S : ClsSpec X) {callOK : Nat → X.Call → Heap C → Prop} {w0 : World C} {n0 : Int}
    {ops : List (Op C X.Call)} (hw : w0.WF) (hfin : w0.live.Finite)
    (hc : ∀ n c, callOK n c w0.heap → S.Valid n c w0.live w0.heap) (hn : S.SetupOK n0)
    (hv : ValidOps S.SetupOK callOK w0 n0.toNat ops)
    (hnf : (X.use n0 ops).NoFail fun r => ∃ o, r = some (o, true)) :
    ∃ o w, After X S.SetupOK callOK w0 (lastLen n0.toNat ops) o w ∧ KeepsInit w0.live w0.heap w.heap := by
  obtain ⟨r, w, hr, ⟨o, rfl⟩, hq⟩ :=
    Act.wp_exists_ok (S.use n0 ops hn (Owned.start hw) (hv.toSpec S hw hc ops n0.toNat)) hnf hfin
  exact ⟨o, w, ⟨n0, ops, hn, hv, rfl, hr⟩, hq.1⟩

theorem World.WF.live_of {w : World C} (hw : w.WF) {p : Ptr} {n : Nat} (hn : 0 < n) (ha : Alloc w.heap p n) :
    p.buf ∈ w.live := by
  by_contra h
  exact ha 0 hn (hw.dead _ h)

theorem Filled.alloc' {h : Heap C} {p : Ptr} {n : Nat} (f : Filled h p n) : Alloc h p n := fun i hi => by
  obtain ⟨v, e⟩ := f i hi; rw [e]; simp

theorem CStep.dead {c d : Config C} (s : CStep c d) {l : Loc} (h : c.heap l = none) : d.heap l = none := by
  cases s with
  | task i _ t =>
    cases t with
    | load _ => exact h
    | store hl =>
      refine (Heap.set_ne _ _ ?_).trans h
      rintro rfl; exact hl h
  | barrier _ => exact h

theorem Reach.dead {c d : Config C} (r : Reach c d) {l : Loc} (h : c.heap l = none) : d.heap l = none := by
  induction r with
  | refl => exact h
  | step s _ ih => exact ih (s.dead h)

/-- the footprint of good code; cells that do not exist are not accessed -/
theorem Good.confined {R D R' D' : Set Loc} {c : Code C} {h h' : Heap C} (g : Good R D c h h')
    (hR : ∀ l ∈ R, h l ≠ none → l ∈ R') (hD : ∀ l ∈ D, l ∈ D') : Confined c h R' D' := by
  refine ⟨g.allSched.mono fun _ _ => trivial, fun d r t ht l b ha => ?_⟩
  have := g.foot r ht ha
  cases b with
  | true => exact hD l this
  | false =>
    refine hR l this fun hn => ?_
    have hd : d.heap l = none := r.dead hn
    have : t.Bad d.heap := by
      cases t with
      | load l' k => cases ha; exact .load fun v => by rw [hd]; simp
      | ret _ => cases ha
      | store _ _ _ => cases ha
      | ub => cases ha
    exact AllSched.noUB g.allSched r (Or.inl ⟨t, ht, this⟩)

theorem Good.deterministic {R D : Set Loc} {c : Code C} {h h' : Heap C} (g : Good R D c h h') :
    Deterministic c h h' := ⟨g.allSched, (Good.single g.toProg).allSched⟩

variable {F : Type} [DArith F] [CArith F C] {thr : Thr}

theorem complexOK.valid {w : World C} (hw : w.WF) (n : Nat) (c : Entry × Ptr) (h : complexOK n c w.heap) :
    FFT.Valid n c w.live w.heap :=
  ⟨h.1, h.2, hw.live_of (by have := h.1.two; omega) h.2.alloc'⟩

theorem realNeed_eq (e : Entry) (n : Nat) : realNeed e n = rfftNeed e n := by cases e <;> rfl

theorem realOK.valid {w : World C} (hw : w.WF) (n : Nat) (c : Entry × Ptr × Ptr) (h : realOK n c w.heap) :
    RFFT.Valid n c w.live w.heap :=
  ⟨h.1, realNeed_eq c.1 n ▸ h.2.1, h.2.2.1, h.2.2.2.1, h.2.2.2.2, hw.live_of h.1.pos h.2.2.1,
    hw.live_of h.1.pos h.2.2.2.1⟩

theorem dctOK.valid {w : World C} (hw : w.WF) (n : Nat) (c : DctEntry × Ptr) (h : dctOK n c w.heap) :
    DCT.Valid n c w.live w.heap :=
  ⟨h.1, h.2, hw.live_of h.1.pos h.2.alloc'⟩

theorem blueOK.valid {w : World C} (hw : w.WF) (n : Nat) (c : Entry × Ptr) (h : blueOK n c w.heap) :
    Bluestein.Valid n c w.live w.heap :=
  ⟨h.1, h.2.1, h.2.2, hw.live_of (by have := h.1; omega) h.2.2.alloc'⟩

variable [Inhabited C]

theorem After.complex {w0 w : World C} {n : Nat} {o : FFT} (hw : w0.WF)
    (ha : After (complexFFT C thr) intLen complexOK w0 n o w) :
    Owned w0.live o.blocks w ∧ o.Ready C thr n w.heap ∧ KeepsInit w0.live w0.heap w.heap :=
  After.spec (complexFFTSpec C thr) hw (complexOK.valid hw) ha

theorem After.real {w0 w : World C} {n : Nat} {o : RFFT} (hw : w0.WF)
    (ha : After (realFFT C thr) intLen realOK w0 n o w) :
    Owned w0.live o.blocks w ∧ o.Ready C thr n w.heap ∧ KeepsInit w0.live w0.heap w.heap :=
  After.spec (realFFTSpec C thr) hw (realOK.valid hw) ha

theorem After.dct {w0 w : World C} {n : Nat} {o : DCT} (hw : w0.WF)
    (ha : After (realDCT C thr) dctLen dctOK w0 n o w) :
    Owned w0.live o.blocks w ∧ o.Ready C thr n w.heap ∧ KeepsInit w0.live w0.heap w.heap :=
  After.spec (realDCTSpec C thr) hw (dctOK.valid hw) ha

theorem After.blue {w0 w : World C} {n : Nat} {o : Bluestein} (hw : w0.WF)
    (ha : After (bluesteinFFT C thr) blueLen blueOK w0 n o w) :
    Owned w0.live o.blocks w ∧ (1 ≤ n → o.Ready1 C thr n w.heap) ∧ KeepsInit w0.live w0.heap w.heap :=
  After.spec (bluesteinSpec C thr) hw (blueOK.valid hw) ha

/-- the blocks of the object are exactly those that are allocated now and were not before -/
theorem Owned.mem_blocks {E : Set Nat} {bs : List Nat} {w : World C} (ow : Owned E bs w) (b : Nat) :
    b ∈ bs ↔ b ∈ w.live \ E := by
  rw [Set.mem_sdiff, ow.live_iff]
  constructor
  · intro h; exact ⟨Or.inr h, ow.disj b h⟩
  · rintro ⟨h | h, h'⟩
    · exact absurd h h'
    · exact h

end OTFFT
