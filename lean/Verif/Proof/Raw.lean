/-
`FFT0` and `DCT0` used directly, with work areas of the caller.
-/
import Verif.Proof.History

namespace OTFFT

variable {F C : Type} [DArith F] [CArith F C]

/-! ### `FFT0` -/

theorem FFT0.create_spec {thr : Thr} {E : Set Nat} {w : World C} {n : Int} {rest : List Nat}
    (hn : intLen n) (ow : Owned E rest w) :
    (FFT0.create C thr n).wp (fun r w' => Same (E ∪ {b | b ∈ rest}) w.heap w'.heap ∧ match r with
      | none => Owned E rest w'
      | some o => Owned E (o.blocks ++ rest) w' ∧ o.Ready C thr n.toNat w'.heap) w := by
  unfold FFT0.create
  refine Act.wp_seq (FFT0.setup_spec hn.1 (by have := hn.2; omega) (o := { FFT0.empty with N := n.toNat }) (rest := rest) ow (List.Perm.refl _)) ?_
  rintro ⟨f, t⟩ w1 ⟨o1, s1, _, r1⟩
  cases t with
  | true =>
    refine Act.wp_seq (FFT0.reset_spec o1 (List.Perm.refl _)) ?_
    rintro _ w2 ⟨o2, s2⟩
    exact ⟨s1.trans s2, o2⟩
  | false => exact ⟨s1, o1, r1 rfl⟩

/-- arguments of an `FFT0` call: a filled array and a work area that does not overlap it -/
structure FFT0.Valid (n : Nat) (c : Entry × Ptr × Ptr) (E : Set Nat) (h : Heap C) : Prop where
  len : ValidLen n
  arr : Filled h c.2.1 n
  allocy : Alloc h c.2.2 n
  sep : Sep c.2.1 n c.2.2 n
  userx : c.2.1.buf ∈ E
  usery : c.2.2.buf ∈ E

/-- one transform of a set up object: footprint and result -/
theorem FFT0.call_foot {thr : Thr} {E : Set Nat} {w : World C} {o : FFT0} {n : Nat} {e : Entry} {x y : Ptr} {v : Nat → C}
    (hn : ValidLen n) (ow : Owned E o.blocks w) (hr : o.Ready C thr n w.heap) (hax : Arr w.heap x n v)
    (hay : Alloc w.heap y n) (hxy : Sep x n y n) (hx : x.buf ∉ o.blocks) (hy : y.buf ∉ o.blocks) :
    ∃ h', Good (Region x n ∪ Region y n ∪ {l | l.1 ∈ insert 0 {b | b ∈ o.blocks}}) (Region x n ∪ Region y n)
        (o.call C thr e x y) w.heap h' ∧
      Arr h' x n (fftOut C thr e.isInv e.mode n v) ∧ (∀ l, l ∉ Region x n ∪ Region y n → h' l = w.heap l) ∧
      o.Ready C thr n h' := by
  have h2 := hn.two
  have hx0 := ow.wf.buf_ne (by omega) hax.alloc
  have hy0 := ow.wf.buf_ne (by omega) hay
  have nx : x.buf ∉ insert 0 {b | b ∈ o.blocks} := by rintro (h | h); exacts [hx0 h, hx h]
  have ny : y.buf ∉ insert 0 {b | b ∈ o.blocks} := by rintro (h | h); exacts [hy0 h, hy h]
  obtain ⟨h', g, a, f⟩ := FFT0.call_good (e := e)
    (R := Region x n ∪ Region y n ∪ {l | l.1 ∈ insert 0 {b | b ∈ o.blocks}}) (D := Region x n ∪ Region y n)
    hn hr hax hay hxy nx ny (fun l h => Or.inl (Or.inl h)) (fun l h => Or.inl (Or.inr h)) (fun l h => Or.inr h)
    (fun l h => Or.inl h) (fun l h => Or.inr h)
  have f' : ∀ l, l ∉ Region x n ∪ Region y n → h' l = w.heap l := fun l hl =>
    f l (fun h => hl (Or.inl h)) (fun h => hl (Or.inr h))
  refine ⟨h', g, a, f', hr.frame fun l hl => f' l ?_⟩
  rintro (⟨i, _, rfl⟩ | ⟨i, _, rfl⟩)
  · exact nx hl
  · exact ny hl

def rawFFTSpec (C : Type) [CArith F C] [Inhabited C] (thr : Thr) : ClsSpec (rawFFT C thr) where
  blocks := FFT0.blocks
  Ready := FFT0.Ready C thr
  SetupOK := intLen
  Valid := FFT0.Valid
  valid_keeps := fun v k => ⟨v.len, v.arr.keeps k v.userx, v.allocy.keeps k v.usery, v.sep, v.userx, v.usery⟩
  create_spec := by
    intro E w n hn ow
    refine Act.wp_mono (FFT0.create_spec hn ow) ?_
    rintro r w' ⟨s, h⟩
    refine ⟨s.mono Set.subset_union_left, ?_⟩
    cases r with
    | none => exact h
    | some o => exact ⟨by simpa using h.1, h.2⟩
  setup_spec := by
    intro E w o n hn ow
    refine Act.wp_mono (FFT0.setup_spec hn.1 (by have := hn.2; omega) (rest := []) ow (by simp)) ?_
    rintro r w' ⟨a, b, _, c⟩
    exact ⟨by simpa using a, b.mono Set.subset_union_left, c⟩
  call_spec := by
    rintro E w o n ⟨e, x, y⟩ ow hr hv
    obtain ⟨v, hax⟩ := hv.arr.arr
    obtain ⟨h', g, a, f, r⟩ := FFT0.call_foot (e := e) hv.len ow hr hax hv.allocy hv.sep
      (fun h => ow.disj _ h hv.userx) (fun h => ow.disj _ h hv.usery)
    exact Act.wp_exec g ⟨ow.ran g, g.keeps E, r⟩
  ready_frame := fun r s => r.frame s
  destroy_spec := by
    intro E w o ow
    refine Act.wp_mono (FFT0.reset_spec (rest := []) ow (by simp)) ?_
    rintro _ w' ⟨a, b⟩
    exact ⟨a, b.mono Set.subset_union_left⟩

theorem FFT0.create_noFail {thr : Thr} {n : Int} (hn : -1 ≤ n) :
    (FFT0.create C thr n).NoFail fun r => r.isSome = true := by
  unfold FFT0.create
  refine Act.NoFail_seq (FFT0.setup_noFail hn) ?_
  rintro ⟨r, t⟩ ht
  simp only at ht
  subst ht
  rfl

theorem FFT0.lifetime_noFail {thr : Thr} (n : Int) (hn : 0 ≤ n) (ops : List (Op C (Entry × Ptr × Ptr)))
    (ho : ∀ op ∈ ops, op.lenNat) :
    ((rawFFT C thr).lifetime n ops).NoFail fun r => r = true :=
  Cls.lifetime_noFail (X := rawFFT C thr) (fun _ h => FFT0.create_noFail (by omega)) (fun _ _ h => FFT0.setup_noFail (by omega))
    (fun _ => FFT0.reset_noFail trivial) _ hn _ ho

/-! ### `DCT0` -/

theorem DCT0.create_spec {thr : Thr} {E : Set Nat} {w : World C} {n : Int} {rest : List Nat}
    (hn : dctLen n) (ow : Owned E rest w) :
    (DCT0.create C thr n).wp (fun r w' => Same (E ∪ {b | b ∈ rest}) w.heap w'.heap ∧ match r with
      | none => Owned E rest w'
      | some o => Owned E (o.blocks ++ rest) w' ∧ o.Ready C thr n.toNat w'.heap) w := by
  unfold DCT0.create
  refine Act.wp_seq (DCT0.setup_spec hn (o := DCT0.empty) (rest := rest) ow (List.Perm.refl _)) ?_
  rintro ⟨f, t⟩ w1 ⟨o1, s1, r1⟩
  cases t with
  | true =>
    have := DCT0.destroy_spec o1 (List.Perm.refl _)
    simp only [DCT0.destroy, Act.wp_bind] at this
    show (SArr.release C f.weight >>= fun _ => f.rfft.destroy C >>= fun _ => .ret none).wp _ w1
    rw [Act.wp_bind]
    refine Act.wp_mono this ?_
    intro _ w2 h2
    rw [Act.wp_bind]
    refine Act.wp_mono h2 ?_
    rintro _ w3 ⟨o2, s2⟩
    exact ⟨s1.trans s2, o2⟩
  | false => exact ⟨s1, o1, r1 rfl⟩

/-- arguments of a `DCT0` call -/
structure DCT0.Valid (n : Nat) (c : DctEntry × Ptr × Ptr × Ptr) (E : Set Nat) (h : Heap C) : Prop where
  len : RealLen n
  arr : Filled h c.2.1 n
  allocy : Alloc h c.2.2.1 n
  allocz : Alloc h c.2.2.2 n
  sepxy : Sep c.2.1 n c.2.2.1 n
  sepxz : Sep c.2.1 n c.2.2.2 n
  sepyz : Sep c.2.2.1 n c.2.2.2 n
  userx : c.2.1.buf ∈ E
  usery : c.2.2.1.buf ∈ E
  userz : c.2.2.2.buf ∈ E

/-- one transform of a set up object: footprint and result -/
theorem DCT0.call_foot {thr : Thr} {E : Set Nat} {w : World C} {o : DCT0} {n : Nat} {e : DctEntry} {x y z : Ptr}
    {v : Nat → C} (hn : RealLen n) (ow : Owned E o.blocks w) (hr : o.Ready C thr n w.heap) (hax : Arr w.heap x n v)
    (hay : Alloc w.heap y n) (haz : Alloc w.heap z n) (hxy : Sep x n y n) (hxz : Sep x n z n) (hyz : Sep y n z n)
    (hx : x.buf ∉ o.blocks) (hy : y.buf ∉ o.blocks) (hz : z.buf ∉ o.blocks) :
    ∃ h', Good (Region x n ∪ Region y n ∪ Region z n ∪ {l | l.1 ∈ insert 0 {b | b ∈ o.blocks}})
        (Region x n ∪ Region y n ∪ Region z n) (o.call C thr e x y z) w.heap h' ∧
      Arr h' x n (dctOut C thr e n v) ∧
      (∀ l, l ∉ Region x n ∪ Region y n ∪ Region z n → h' l = w.heap l) ∧ o.Ready C thr n h' := by
  have hx0 := ow.wf.buf_ne hn.pos hax.alloc
  have hy0 := ow.wf.buf_ne hn.pos hay
  have hz0 := ow.wf.buf_ne hn.pos haz
  obtain ⟨h', g, a, f⟩ := DCT0.call_good (e := e) hn hr hax hay haz hxy hxz hyz hy0 hz0 hx hy hz
  refine ⟨h', g, a, f, hr.frame fun l hl => f l ?_⟩
  rintro ((⟨i, _, rfl⟩ | ⟨i, _, rfl⟩) | ⟨i, _, rfl⟩)
  · rcases hl with h | h; exacts [hx0 h, hx h]
  · rcases hl with h | h; exacts [hy0 h, hy h]
  · rcases hl with h | h; exacts [hz0 h, hz h]

def rawDCTSpec (C : Type) [CArith F C] [Inhabited C] (thr : Thr) : ClsSpec (rawDCT C thr) where
  blocks := DCT0.blocks
  Ready := DCT0.Ready C thr
  SetupOK := dctLen
  Valid := DCT0.Valid
  valid_keeps := fun v k => ⟨v.len, v.arr.keeps k v.userx, v.allocy.keeps k v.usery, v.allocz.keeps k v.userz,
    v.sepxy, v.sepxz, v.sepyz, v.userx, v.usery, v.userz⟩
  create_spec := by
    intro E w n hn ow
    refine Act.wp_mono (DCT0.create_spec hn ow) ?_
    rintro r w' ⟨s, h⟩
    refine ⟨s.mono Set.subset_union_left, ?_⟩
    cases r with
    | none => exact h
    | some o => exact ⟨by simpa using h.1, h.2⟩
  setup_spec := by
    intro E w o n hn ow
    refine Act.wp_mono (DCT0.setup_spec hn (rest := []) ow (by simp)) ?_
    rintro r w' ⟨a, b, c⟩
    exact ⟨by simpa using a, b.mono Set.subset_union_left, c⟩
  call_spec := by
    rintro E w o n ⟨e, x, y, z⟩ ow hr hv
    obtain ⟨v, hax⟩ := hv.arr.arr
    obtain ⟨h', g, a, f, r⟩ := DCT0.call_foot (e := e) hv.len ow hr hax hv.allocy hv.allocz hv.sepxy hv.sepxz hv.sepyz
      (fun h => ow.disj _ h hv.userx) (fun h => ow.disj _ h hv.usery) (fun h => ow.disj _ h hv.userz)
    exact Act.wp_exec g ⟨ow.ran g, g.keeps E, r⟩
  ready_frame := fun r s => r.frame s
  destroy_spec := by
    intro E w o ow
    refine Act.wp_mono (DCT0.destroy_spec (rest := []) ow (by simp)) ?_
    rintro _ w' ⟨a, b⟩
    exact ⟨a, b.mono Set.subset_union_left⟩

theorem DCT0.create_noFail {thr : Thr} {n : Int} (hn : -1 ≤ n) :
    (DCT0.create C thr n).NoFail fun r => r.isSome = true := by
  unfold DCT0.create
  refine Act.NoFail_seq (DCT0.setup_noFail hn) ?_
  rintro ⟨r, t⟩ ht
  simp only at ht
  subst ht
  rfl

theorem DCT0.lifetime_noFail {thr : Thr} (n : Int) (hn : 0 ≤ n) (ops : List (Op C (DctEntry × Ptr × Ptr × Ptr)))
    (ho : ∀ op ∈ ops, op.lenNat) :
    ((rawDCT C thr).lifetime n ops).NoFail fun r => r = true :=
  Cls.lifetime_noFail (X := rawDCT C thr) (fun _ h => DCT0.create_noFail (by omega)) (fun _ _ h => DCT0.setup_noFail (by omega))
    (fun _ => DCT0.destroy_noFail trivial) _ hn _ ho

end OTFFT
