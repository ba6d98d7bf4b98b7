/-
What a call of each class writes, in a form common to all classes.
-/
import Verif.Proof.Threads
import Verif.Proof.Raw
import Verif.Spec.Pool

noncomputable section

namespace OTFFT

variable {C : Type}

/-- write footprint of the calls of a class -/
structure ClsFoot {X : Cls C} (S : ClsSpec X) where
  /-- cells of the client a call may change -/
  wr : Nat → X.Call → Set Loc
  /-- the arrays passed to the call -/
  arr : Nat → X.Call → Set Loc
  /-- the input array -/
  inp : X.Call → Ptr
  need : Nat → X.Call → Nat
  /-- the result -/
  outp : X.Call → Ptr
  out : Nat → X.Call → (Nat → C) → Nat → C
  /-- calls do not write the object -/
  frozen : Bool
  valid_mono : ∀ {n c E E' h}, S.Valid n c E h → E ⊆ E' → S.Valid n c E' h
  wr_user : ∀ {n c E h l}, S.Valid n c E h → l ∈ wr n c → l.1 ∈ E
  filled : ∀ {n c E h}, S.Valid n c E h → Filled h (inp c) (need n c)
  call_good : ∀ {E : Set Nat} {w : World C} {o : X.Obj} {n : Nat} {c : X.Call} {v : Nat → C}, Owned E (S.blocks o) w →
    S.Ready o n w.heap → S.Valid n c E w.heap → Arr w.heap (inp c) (need n c) v →
    ∃ h', Good (arr n c ∪ {l | l.1 ∈ insert 0 {b | b ∈ S.blocks o}}) (wr n c ∪ {l | frozen = false ∧ l.1 ∈ S.blocks o}) (X.call o c) w.heap h' ∧
      Arr h' (outp c) n (out n c v)

/-- the object is ready for the next call -/
theorem ClsFoot.call {X : Cls C} {S : ClsSpec X} (K : ClsFoot S) {E : Set Nat} {w : World C} {o : X.Obj} {n : Nat}
    {c : X.Call} {v : Nat → C} (ow : Owned E (S.blocks o) w) (hr : S.Ready o n w.heap) (hv : S.Valid n c E w.heap)
    (hax : Arr w.heap (K.inp c) (K.need n c) v) :
    ∃ h', Good (K.arr n c ∪ {l | l.1 ∈ insert 0 {b | b ∈ S.blocks o}}) (K.wr n c ∪ {l | K.frozen = false ∧ l.1 ∈ S.blocks o}) (X.call o c) w.heap h' ∧
      Arr h' (K.outp c) n (K.out n c v) ∧ S.Ready o n h' := by
  obtain ⟨h', g, i⟩ := K.call_good ow hr hv hax
  refine ⟨h', g, i, ?_⟩
  have a : AllSched _ _ := S.call_spec ow hr hv
  obtain ⟨d, r, f, q⟩ := a.terminates
  have e : d.heap = h' := AllSched.final g.allSched r f
  exact e ▸ q.2.2

theorem Arr.init_region {h : Heap C} {x : Ptr} {n : Nat} {v : Nat → C} (a : Arr h x n v) :
    ∀ l ∈ Region x n, ∃ u, h l = some (some u) := by
  rintro l ⟨i, hi, rfl⟩
  exact ⟨_, a i hi⟩

theorem region_buf {x : Ptr} {n : Nat} {l : Loc} (h : l ∈ Region x n) : l.1 = x.buf := by
  obtain ⟨i, _, rfl⟩ := h; rfl

variable {F : Type} [DArith F] [CArith F C] [Inhabited C]

def complexFFTFoot (C : Type) [CArith F C] [Inhabited C] (thr : Thr) : ClsFoot (complexFFTSpec C thr) where
  wr := fun n c => Kind.writes (thr := thr) .complex n c
  arr := fun n c => Kind.arrays (thr := thr) .complex n c
  inp := fun c => Kind.input (thr := thr) .complex c
  need := fun n c => Kind.need (thr := thr) .complex n c
  outp := fun c => Kind.output (thr := thr) .complex c
  out := fun n c v => let c : Entry × Ptr := c; fftOut C thr c.1.isInv c.1.mode n v
  frozen := false
  valid_mono := fun v h => ⟨v.len, v.arr, h v.user⟩
  wr_user := fun v h => by rw [region_buf h]; exact v.user
  filled := fun v => v.arr
  call_good := by
    rintro E w o n ⟨e, x⟩ v ow hr hv hax
    have ow : Owned E (FFT.blocks o) w := ow
    have hr : FFT.Ready C thr o n w.heap := hr
    obtain ⟨h', g, a, _⟩ := FFT.call_good (rest := []) (e := e) hv.len ow (by simp) hr hax (fun h => ow.disj _ h hv.user)
    refine ⟨h', g.mono subset_rfl ?_, a⟩
    rintro l (h | h)
    · exact Or.inl h
    · obtain ⟨b, hw, hy, _⟩ := hr.work
      refine Or.inr ⟨rfl, ?_⟩
      rw [region_buf h]
      show _ ∈ FFT.blocks o
      simp [FFT.blocks, hw, hy, Ptr.base]

def realFFTFoot (C : Type) [CArith F C] [Inhabited C] (thr : Thr) : ClsFoot (realFFTSpec C thr) where
  wr := fun n c => Kind.writes (thr := thr) .real n c
  arr := fun n c => Kind.arrays (thr := thr) .real n c
  inp := fun c => Kind.input (thr := thr) .real c
  need := fun n c => Kind.need (thr := thr) .real n c
  outp := fun c => Kind.output (thr := thr) .real c
  out := fun n c v => let c : Entry × Ptr × Ptr := c; rfftOut C thr c.1 n v
  frozen := true
  valid_mono := fun v h => ⟨v.len, v.arr, v.allocx, v.allocy, v.sep, h v.userx, h v.usery⟩
  wr_user := by
    rintro n ⟨e, x, y⟩ E h l v hl
    have : l ∈ Region x n ∪ Region y n := by
      cases e <;> first | exact hl | exact Or.inr hl
    rcases this with h | h
    · rw [region_buf h]; exact v.userx
    · rw [region_buf h]; exact v.usery
  filled := fun v => by
    have := v.arr
    rw [← realNeed_eq] at this
    exact this
  call_good := by
    rintro E w o n ⟨e, x, y⟩ v ow hr hv hax
    have hax : Arr w.heap x (realNeed e n) v := hax
    rw [realNeed_eq] at hax
    have ow : Owned E (RFFT.blocks o) w := ow
    have hr : RFFT.Ready C thr o n w.heap := hr
    obtain ⟨h', g, a, _⟩ := RFFT.call_good (e := e) hv.len hr hax hv.allocx hv.allocy hv.sep
      (ow.wf.buf_ne hv.len.pos hv.allocx) (ow.wf.buf_ne hv.len.pos hv.allocy)
      (fun h => ow.disj _ h hv.userx) (fun h => ow.disj _ h hv.usery)
    refine ⟨h', g.mono subset_rfl ?_, a⟩
    intro l hl
    left
    cases e <;> exact hl

def realDCTFoot (C : Type) [CArith F C] [Inhabited C] (thr : Thr) : ClsFoot (realDCTSpec C thr) where
  wr := fun n c => Kind.writes (thr := thr) .dct n c
  arr := fun n c => Kind.arrays (thr := thr) .dct n c
  inp := fun c => Kind.input (thr := thr) .dct c
  need := fun n c => Kind.need (thr := thr) .dct n c
  outp := fun c => Kind.output (thr := thr) .dct c
  out := fun n c v => let c : DctEntry × Ptr := c; dctOut C thr c.1 n v
  frozen := false
  valid_mono := fun v h => ⟨v.len, v.arr, h v.user⟩
  wr_user := fun v h => by rw [region_buf h]; exact v.user
  filled := fun v => v.arr
  call_good := by
    rintro E w o n ⟨e, x⟩ v ow hr hv hax
    have ow : Owned E (DCT.blocks o) w := ow
    have hr : DCT.Ready C thr o n w.heap := hr
    obtain ⟨h', g, a, _⟩ := DCT.call_good (e := e) hv.len ow hr hax (fun h => ow.disj _ h hv.user)
    obtain ⟨by1, bz, _⟩ := hr.bufs ow.nodup
    refine ⟨h', g.mono subset_rfl ?_, a⟩
    rintro l ((h | h) | h)
    · exact Or.inl h
    · exact Or.inr ⟨rfl, by rw [region_buf h]; exact by1⟩
    · exact Or.inr ⟨rfl, by rw [region_buf h]; exact bz⟩

def bluesteinFoot (C : Type) [CArith F C] [Inhabited C] (thr : Thr) : ClsFoot (bluesteinSpec C thr) where
  wr := fun n c => Kind.writes (thr := thr) .bluestein n c
  arr := fun n c => Kind.arrays (thr := thr) .bluestein n c
  inp := fun c => Kind.input (thr := thr) .bluestein c
  need := fun n c => Kind.need (thr := thr) .bluestein n c
  outp := fun c => Kind.output (thr := thr) .bluestein c
  out := fun n c v => let c : Entry × Ptr := c; blueOutF C thr c.1 n v
  frozen := false
  valid_mono := fun v h => ⟨v.pos, v.le, v.arr, h v.user⟩
  wr_user := fun v h => by rw [region_buf h]; exact v.user
  filled := fun v => v.arr
  call_good := by
    rintro E w o n ⟨e, x⟩ v ow hr hv hax
    have ow : Owned E (Bluestein.blocks o) w := ow
    have hr : Bluestein.Ready1 C thr o n w.heap := hr hv.pos
    obtain ⟨h', g, a, _⟩ := Bluestein.call_good (e := e) hv.pos hv.le ow hr hax (fun h => ow.disj _ h hv.user)
    obtain ⟨ba, bb, bW, bF, _⟩ := hr.bufs ow.nodup
    refine ⟨h', g.mono subset_rfl ?_, a⟩
    rintro l (h | (h | h) | h)
    · exact Or.inl h
    · exact Or.inr ⟨rfl, by rw [region_buf h]; exact ba⟩
    · exact Or.inr ⟨rfl, by rw [region_buf h]; exact bb⟩
    · refine Or.inr ⟨rfl, ?_⟩
      rw [region_buf h]
      obtain ⟨b, hw, hy, _⟩ := hr.fft.work
      refine bF _ ?_
      simp [FFT.blocks, hw, hy, Ptr.base]

def rawFFTFoot (C : Type) [CArith F C] [Inhabited C] (thr : Thr) : ClsFoot (rawFFTSpec C thr) where
  wr := fun n c => Kind.writes (thr := thr) .fft0 n c
  arr := fun n c => Kind.arrays (thr := thr) .fft0 n c
  inp := fun c => Kind.input (thr := thr) .fft0 c
  need := fun n c => Kind.need (thr := thr) .fft0 n c
  outp := fun c => Kind.output (thr := thr) .fft0 c
  out := fun n c v => let c : Entry × Ptr × Ptr := c; fftOut C thr c.1.isInv c.1.mode n v
  frozen := true
  valid_mono := fun v h => ⟨v.len, v.arr, v.allocy, v.sep, h v.userx, h v.usery⟩
  wr_user := by
    rintro n ⟨e, x, y⟩ E h l v (h | h)
    · rw [region_buf h]; exact v.userx
    · rw [region_buf h]; exact v.usery
  filled := fun v => v.arr
  call_good := by
    rintro E w o n ⟨e, x, y⟩ v ow hr hv hax
    have ow : Owned E (FFT0.blocks o) w := ow
    have hr : FFT0.Ready C thr o n w.heap := hr
    obtain ⟨h', g, a, _⟩ := FFT0.call_foot (e := e) hv.len ow hr hax hv.allocy hv.sep
      (fun h => ow.disj _ h hv.userx) (fun h => ow.disj _ h hv.usery)
    exact ⟨h', g.mono subset_rfl fun l hl => Or.inl hl, a⟩

def rawDCTFoot (C : Type) [CArith F C] [Inhabited C] (thr : Thr) : ClsFoot (rawDCTSpec C thr) where
  wr := fun n c => Kind.writes (thr := thr) .dct0 n c
  arr := fun n c => Kind.arrays (thr := thr) .dct0 n c
  inp := fun c => Kind.input (thr := thr) .dct0 c
  need := fun n c => Kind.need (thr := thr) .dct0 n c
  outp := fun c => Kind.output (thr := thr) .dct0 c
  out := fun n c v => let c : DctEntry × Ptr × Ptr × Ptr := c; dctOut C thr c.1 n v
  frozen := true
  valid_mono := fun v h => ⟨v.len, v.arr, v.allocy, v.allocz, v.sepxy, v.sepxz, v.sepyz, h v.userx, h v.usery, h v.userz⟩
  wr_user := by
    rintro n ⟨e, x, y, z⟩ E h l v ((h | h) | h)
    · rw [region_buf h]; exact v.userx
    · rw [region_buf h]; exact v.usery
    · rw [region_buf h]; exact v.userz
  filled := fun v => v.arr
  call_good := by
    rintro E w o n ⟨e, x, y, z⟩ v ow hr hv hax
    have ow : Owned E (DCT0.blocks o) w := ow
    have hr : DCT0.Ready C thr o n w.heap := hr
    obtain ⟨h', g, a, _⟩ := DCT0.call_foot (e := e) hv.len ow hr hax hv.allocy hv.allocz hv.sepxy hv.sepxz hv.sepyz
      (fun h => ow.disj _ h hv.userx) (fun h => ow.disj _ h hv.usery) (fun h => ow.disj _ h hv.userz)
    exact ⟨h', g.mono subset_rfl fun l hl => Or.inl hl, a⟩

/-! ### All classes together -/

def Kind.spec (C : Type) [CArith F C] [Inhabited C] (thr : Thr) : (k : Kind) → ClsSpec (k.cls C thr)
  | .complex => complexFFTSpec C thr
  | .real => realFFTSpec C thr
  | .dct => realDCTSpec C thr
  | .bluestein => bluesteinSpec C thr
  | .fft0 => rawFFTSpec C thr
  | .dct0 => rawDCTSpec C thr

def Kind.foot (C : Type) [CArith F C] [Inhabited C] (thr : Thr) : (k : Kind) → ClsFoot (k.spec C thr)
  | .complex => complexFFTFoot C thr
  | .real => realFFTFoot C thr
  | .dct => realDCTFoot C thr
  | .bluestein => bluesteinFoot C thr
  | .fft0 => rawFFTFoot C thr
  | .dct0 => rawDCTFoot C thr

theorem Kind.foot_wr (thr : Thr) (k : Kind) (n : Nat) (c : (k.cls C thr).Call) : (k.foot C thr).wr n c = k.writes n c := by
  cases k <;> rfl
theorem Kind.foot_arr (thr : Thr) (k : Kind) (n : Nat) (c : (k.cls C thr).Call) : (k.foot C thr).arr n c = k.arrays n c := by
  cases k <;> rfl
theorem Kind.foot_inp (thr : Thr) (k : Kind) (c : (k.cls C thr).Call) : (k.foot C thr).inp c = k.input c := by
  cases k <;> rfl
theorem Kind.foot_need (thr : Thr) (k : Kind) (n : Nat) (c : (k.cls C thr).Call) : (k.foot C thr).need n c = k.need n c := by
  cases k <;> rfl
theorem Kind.foot_outp (thr : Thr) (k : Kind) (c : (k.cls C thr).Call) : (k.foot C thr).outp c = k.output c := by
  cases k <;> rfl
/-- the result as a function of the input -/
noncomputable def Kind.out (C : Type) [CArith F C] [Inhabited C] (thr : Thr) : (k : Kind) → Nat → k.Fn → (Nat → C) → Nat → C
  | .complex, n, e, v => let e : Entry := e; fftOut C thr e.isInv e.mode n v
  | .real, n, e, v => let e : Entry := e; rfftOut C thr e n v
  | .dct, n, e, v => let e : DctEntry := e; dctOut C thr e n v
  | .bluestein, n, e, v => let e : Entry := e; blueOutF C thr e n v
  | .fft0, n, e, v => let e : Entry := e; fftOut C thr e.isInv e.mode n v
  | .dct0, n, e, v => let e : DctEntry := e; dctOut C thr e n v
theorem Kind.foot_out (thr : Thr) (k : Kind) (n : Nat) (c : (k.cls C thr).Call) (v : Nat → C) :
    (k.foot C thr).out n c v = k.out C thr n (k.fn c) v := by
  cases k <;> rfl
theorem Kind.foot_frozen (thr : Thr) (k : Kind) : (k.foot C thr).frozen = k.sharable := by
  cases k <;> rfl
theorem Kind.spec_setup (thr : Thr) (k : Kind) (n : Int) (h : k.setupOK n) : (k.spec C thr).SetupOK n := by
  cases k <;> exact h

/-- valid arguments made of cells of the client -/
theorem Kind.valid {thr : Thr} {k : Kind} {n : Nat} {c : (k.cls C thr).Call} {w : World C} (hw : w.WF) (h : k.callOK n c w.heap) :
    (k.spec C thr).Valid n c w.live w.heap := by
  cases k with
  | complex => exact complexOK.valid hw n c h
  | real => exact realOK.valid hw n c h
  | dct => exact dctOK.valid hw n c h
  | bluestein => exact blueOK.valid hw n c h
  | fft0 =>
    have h : rawFFTOK n c w.heap := h
    have := h.1.two
    exact ⟨h.1, h.2.1, h.2.2.1, h.2.2.2, hw.live_of (by omega) h.2.1.alloc', hw.live_of (by omega) h.2.2.1⟩
  | dct0 =>
    have h : rawDCTOK n c w.heap := h
    exact ⟨h.1, h.2.1, h.2.2.1, h.2.2.2.1, h.2.2.2.2.1, h.2.2.2.2.2.1, h.2.2.2.2.2.2,
      hw.live_of h.1.pos h.2.1.alloc', hw.live_of h.1.pos h.2.2.1, hw.live_of h.1.pos h.2.2.2.1⟩

theorem Filled.of_eq {h h' : Heap C} {x : Ptr} {n m : Nat} {A : Set Loc} (f : Filled h x m) (hm : m ≤ n) (hA : Region x n ⊆ A)
    (e : ∀ l ∈ A, h' l = h l) : Filled h' x m := fun i hi => by
  obtain ⟨v, hv⟩ := f i hi
  exact ⟨v, (e _ (hA ⟨i, by omega, rfl⟩)).trans hv⟩

theorem Alloc.congr_on {h h' : Heap C} {x : Ptr} {n : Nat} {A : Set Loc} (f : Alloc h x n) (hA : Region x n ⊆ A)
    (e : ∀ l ∈ A, h' l = h l) : Alloc h' x n := fun i hi => by
  rw [e _ (hA ⟨i, hi, rfl⟩)]; exact f i hi

/-- only the cells of the arrays matter -/
theorem Kind.callOK.congr {thr : Thr} {k : Kind} {n : Nat} {c : (k.cls C thr).Call} {h h' : Heap C} {A : Set Loc}
    (ok : k.callOK n c h) (hA : k.arrays n c ⊆ A) (e : ∀ l ∈ A, h' l = h l) : k.callOK n c h' := by
  cases k with
  | complex => exact ⟨ok.1, ok.2.of_eq le_rfl hA e⟩
  | real =>
    have ok : realOK n c h := ok
    obtain ⟨a, b⟩ := Set.union_subset_iff.1 hA
    have hn := ok.1.pos
    refine ⟨ok.1, ok.2.1.of_eq (n := n) ?_ a e, ok.2.2.1.congr_on a e, ok.2.2.2.1.congr_on b e, ok.2.2.2.2⟩
    unfold realNeed
    split <;> omega
  | dct => exact ⟨ok.1, ok.2.of_eq le_rfl hA e⟩
  | bluestein => exact ⟨ok.1, ok.2.1, ok.2.2.of_eq le_rfl hA e⟩
  | fft0 =>
    have ok : rawFFTOK n c h := ok
    obtain ⟨a, b⟩ := Set.union_subset_iff.1 hA
    exact ⟨ok.1, ok.2.1.of_eq le_rfl a e, ok.2.2.1.congr_on b e, ok.2.2.2⟩
  | dct0 =>
    have ok : rawDCTOK n c h := ok
    obtain ⟨ab, d⟩ := Set.union_subset_iff.1 hA
    obtain ⟨a, b⟩ := Set.union_subset_iff.1 ab
    exact ⟨ok.1, ok.2.1.of_eq le_rfl a e, ok.2.2.1.congr_on b e, ok.2.2.2.1.congr_on d e, ok.2.2.2.2⟩

omit [Inhabited C] in
theorem World.WF.live_of_cell {w : World C} (hw : w.WF) {l : Loc} (h : w.heap l ≠ none) : l.1 ∈ w.live := by
  by_contra hc; exact h (hw.dead l hc)

/-- an object constructed for a single transform -/
theorem Kind.computes (thr : Thr) {k : Kind} {n : Nat} {c : (k.cls C thr).Call} {w : World C} {v : Nat → C} (hw : w.WF)
    (hn : k.setupOK n) (ok : k.callOK n c w.heap) (hax : Arr w.heap (k.input c) (k.need n c) v) :
    ComputesIn (k.cls C thr) n [c] w (k.writes n c) (k.output c) n (k.out C thr n (k.fn c) v) := by
  have hv : (k.spec C thr).Valid n c w.live w.heap := Kind.valid hw ok
  refine (k.spec C thr).computesIn (fun i h => if i = 0 then Same w.live w.heap h else
      Arr h (k.output c) n (k.out C thr n (k.fn c) v) ∧ ∀ l : Loc, l.1 ∈ w.live → l ∉ Region (k.output c) n ∪ k.writes n c → h l = w.heap l)
    (Kind.spec_setup thr k n hn) hw (Same.refl _ _) ?_ ?_ ?_ ?_
  · intro i h h' s p
    by_cases e : i = 0
    · rw [if_pos e] at p ⊢; exact p.trans s
    · rw [if_neg e] at p ⊢
      refine ⟨fun j hj => ?_, fun l h1 h2 => (s l h1).trans (p.2 l h1 h2)⟩
      rw [s _ ?_]
      · exact p.1 j hj
      · have : (k.output c).buf ∈ w.live := by
          rcases Nat.eq_zero_or_pos n with h0 | h0
          · omega
          · cases k with
            | complex => exact hw.live_of h0 ok.2.alloc'
            | real =>
              have ok : realOK n c w.heap := ok
              exact hw.live_of h0 ok.2.2.2.1
            | dct => exact hw.live_of h0 ok.2.alloc'
            | bluestein => exact hw.live_of h0 ok.2.2.alloc'
            | fft0 => exact hw.live_of h0 ok.2.1.alloc'
            | dct0 => exact hw.live_of h0 ok.2.1.alloc'
        exact this
  · intro i c' hc o w' ow hr p
    cases i with
    | succ i => simp at hc
    | zero =>
      cases hc
      have p : Same w.live w.heap w'.heap := p
      have hv' := (k.spec C thr).valid_keeps hv p.keeps
      have hax' : Arr w'.heap (k.input c) (k.need n c) v := by
        intro i hi
        rw [p _ ?_]
        · exact hax i hi
        · refine hw.live_of_cell ?_
          rw [hax i hi]; simp
      rw [← Kind.foot_inp, ← Kind.foot_need] at hax'
      obtain ⟨h', g, a, r⟩ := (k.foot C thr).call ow hr hv' hax'
      rw [Kind.foot_outp, Kind.foot_out] at a
      rw [Kind.foot_wr] at g
      refine Act.wp_exec g ⟨ow.ran g, r, ?_⟩
      rw [if_neg (by omega)]
      refine ⟨a, fun l h1 h2 => (g.out l ?_).trans (p l h1)⟩
      rintro (h | h)
      · exact h2 (Or.inr h)
      · exact ow.disj _ h.2 h1
  · intro h p
    exact p
  · cases k with
    | complex => exact FFT.lifetime_noFail _ (by omega) _ (lenNat_calls _)
    | real => exact RFFT.lifetime_noFail _ (by omega) _ (lenNat_calls _)
    | dct => exact DCT.lifetime_noFail _ (by omega) _ (lenNat_calls _)
    | bluestein => exact Bluestein.lifetime_noFail _ (by omega) _ (lenNat_calls _)
    | fft0 => exact FFT0.lifetime_noFail _ (by omega) _ (lenNat_calls _)
    | dct0 => exact DCT0.lifetime_noFail _ (by omega) _ (lenNat_calls _)

end OTFFT
