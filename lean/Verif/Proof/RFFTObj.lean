/-
`RFFT` (= `RealFFT`): construction, `setup`, transforms, destruction.
-/
import Verif.Proof.RFFTMem
import Verif.Proof.Steps

noncomputable section

namespace OTFFT

variable {F C : Type} [DArith F] [CArith F C]

/-- a set up `RFFT` object of length `n` -/
structure RFFT.Ready (C : Type) [CArith F C] (thr : Thr) (o : RFFT) (n : Nat) (h : Heap C) : Prop where
  len : o.N = n
  fft : o.fft.Ready C thr (n / 2) h
  weight : ∃ b, o.weight = some b ∧ o.U = Ptr.base b ∧ (1 ≤ n → Arr h (Ptr.base b) (n + 1) (rfftTab C n))

theorem RFFT.Ready.frame {thr : Thr} {o : RFFT} {n : Nat} {h h' : Heap C} (r : o.Ready C thr n h)
    (s : Same (insert 0 {b | b ∈ o.blocks}) h h') : o.Ready C thr n h' := by
  refine ⟨r.len, r.fft.frame (s.mono ?_), ?_⟩
  · rintro b (h | h)
    · exact Or.inl h
    · exact Or.inr (List.mem_append_left _ h)
  · obtain ⟨b, hw, hy, ha⟩ := r.weight
    refine ⟨b, hw, hy, fun h1 i hi => ?_⟩
    rw [s.ptr (p := Ptr.base b) (Or.inr (by simp [RFFT.blocks, hw, Ptr.base]))]
    exact ha h1 i hi

/-- `n / 2` of an `int` -/
theorem tdiv_two (n : Int) : (n.tdiv 2).toNat = n.toNat / 2 ∧ (0 ≤ n → n.tdiv 2 ≤ n ∧ 0 ≤ n.tdiv 2) ∧
    (n < 0 → n ≤ n.tdiv 2 ∧ n.tdiv 2 ≤ 0) := by
  rw [Int.tdiv_eq_ediv]
  split
  · omega
  · have : Int.sign 2 = 1 := rfl
    rw [this]; omega

theorem RFFT.setup_spec {thr : Thr} {E : Set Nat} {w : World C} {o : RFFT} {n : Int} {bs rest : List Nat}
    (hn : intLen n) (ow : Owned E bs w) (hp : bs.Perm (o.blocks ++ rest)) :
    (o.setup C thr n).wp (fun r w' => Owned E (r.1.blocks ++ rest) w' ∧
      Same (E ∪ {b | b ∈ rest}) w.heap w'.heap ∧
      (r.2 = false → r.1.Ready C thr n.toNat w'.heap)) w := by
  have hb := tdiv_two n
  have hn1 := hn.1
  have hn2 := hn.2
  unfold RFFT.setup
  refine Act.wp_seq (FFT0.setup_spec (by omega) (by omega) (rest := o.weight.toList ++ rest) ow
    (hp.trans (by simp [RFFT.blocks]))) ?_
  rintro ⟨f, t⟩ w1 ⟨o1, s1, t1, r1⟩
  have s1' : Same (E ∪ {b | b ∈ rest}) w.heap w1.heap := s1.mono (mem_union_list (by simp; tauto))
  cases t with
  | true => exact ⟨o1.perm (by simp [RFFT.blocks]), s1', by simp⟩
  | false =>
    simp only [Bool.false_eq_true, if_false]
    refine Act.int_seq (by omega) (by omega) (Act.wp_seq (sarr_setupI_spec (a := o.weight) (rest := f.blocks ++ rest) o1 ?_) ?_)
    · refine List.perm_iff_count.2 fun a => ?_
      simp only [List.count_append]; omega
    · rintro r w2 ⟨o2, s2, al⟩
      have s2' : Same (E ∪ {b | b ∈ rest}) w1.heap w2.heap := s2.mono (mem_union_list (by simp; tauto))
      cases r with
      | none =>
        refine ⟨o2.perm (by
          refine List.perm_iff_count.2 fun a => ?_
          simp only [RFFT.blocks, List.count_append, Option.toList]; omega), s1'.trans s2', by simp⟩
      | some b =>
        have hg : ∃ h', Good Set.univ (Region (Ptr.base b) (n.toNat + 1)) (rfftTable C thr n.toNat (Ptr.base b)) w2.heap h' ∧
            (1 ≤ n.toNat → Arr h' (Ptr.base b) (n.toNat + 1) (rfftTab C n.toNat)) ∧
            ∀ l, l ∉ Region (Ptr.base b) (n.toNat + 1) → h' l = w2.heap l := by
          by_cases h1 : n < 0
          · have e : rfftTable C thr n.toNat (Ptr.base b) = [] := by unfold rfftTable; rw [if_pos (by omega)]
            rw [e]
            exact ⟨_, .nil, fun h => absurd h (by omega), fun _ _ => rfl⟩
          · have hal := (al b rfl).2
            rw [show (n + 1).toNat = n.toNat + 1 by omega] at hal
            exact rfftTable_good hal (le_refl _)
        refine Act.wp_seq (table_step o2 hg) ?_
        rintro _ w3 ⟨o3, s3, t⟩
        refine ⟨o3.perm (by
          show (b :: (f.blocks ++ rest)).Perm _
          refine List.perm_iff_count.2 fun a => ?_
          simp only [RFFT.blocks, List.count_append, List.count_cons, List.count_nil, Option.toList]; omega),
          (s1'.trans s2').trans (s3.mono (mem_union_list (by simp; tauto))), fun _ => ⟨rfl, ?_, b, rfl, rfl, t⟩⟩
        refine ((hb.1 ▸ r1 rfl : f.Ready C thr (n.toNat / 2) w1.heap)).frame (((s2.null o1.wf o2.wf).trans ((s3.null o2.wf o3.wf))).mono ?_)
        rintro c (h | h)
        · exact Or.inl h
        · exact Or.inr (Or.inr (List.mem_append_left _ h))

theorem RFFT.destroy_spec {E : Set Nat} {w : World C} {o : RFFT} {bs rest : List Nat} (ow : Owned E bs w)
    (hp : bs.Perm (o.blocks ++ rest)) :
    (o.destroy C).wp (fun _ w' => Owned E rest w' ∧ Same (E ∪ {b | b ∈ rest}) w.heap w'.heap) w := by
  unfold RFFT.destroy
  refine Act.wp_seq (release_spec (a := o.weight) (rest := o.fft.blocks ++ rest) ow (hp.trans ?_)) ?_
  · refine List.perm_iff_count.2 fun a => ?_
    simp only [RFFT.blocks, List.count_append]; omega
  · rintro _ w1 ⟨o1, s1⟩
    refine Act.wp_mono (FFT0.reset_spec o1 (List.Perm.refl _)) ?_
    rintro _ w2 ⟨o2, s2⟩
    exact ⟨o2, (s1.mono (mem_union_list (by simp; tauto))).trans s2⟩

theorem RFFT.create_spec {thr : Thr} {E : Set Nat} {w : World C} {n : Int} {rest : List Nat}
    (hn : intLen n) (ow : Owned E rest w) :
    (RFFT.create C thr n).wp (fun r w' => Same (E ∪ {b | b ∈ rest}) w.heap w'.heap ∧ match r with
      | none => Owned E rest w'
      | some o => Owned E (o.blocks ++ rest) w' ∧ o.Ready C thr n.toNat w'.heap) w := by
  unfold RFFT.create
  refine Act.wp_seq (RFFT.setup_spec hn (o := RFFT.empty) (rest := rest) ow (List.Perm.refl _)) ?_
  rintro ⟨f, t⟩ w1 ⟨o1, s1, r1⟩
  cases t with
  | true =>
    refine Act.wp_seq (RFFT.destroy_spec o1 (List.Perm.refl _)) ?_
    rintro _ w2 ⟨o2, s2⟩
    exact ⟨s1.trans s2, o2⟩
  | false => exact ⟨s1, o1, r1 rfl⟩

/-- what a transform of `RealFFT` writes to its output, any arithmetic -/
def rfftOut (C : Type) [CArith F C] (thr : Thr) (e : Entry) (n : Nat) (v : Nat → C) : Nat → C :=
  if n = 1 then fun _ => ofD C (CArith.re (v 0))
  else if e.isInv then rfftInvOut C thr e.mode (n / 2) v
  else rfftFwdOut C thr e.mode (n / 2) v

/-- how much of the input array a transform reads -/
def rfftNeed (e : Entry) (n : Nat) : Nat := if e.isInv then n / 2 + 1 else n

/-- what a transform may overwrite -/
def rfftDirty (e : Entry) (n : Nat) (x y : Ptr) : Set Loc :=
  if e.isInv then Region x n ∪ Region y n else Region y n

theorem RFFT.call_eq (thr : Thr) (o : RFFT) (e : Entry) (x y : Ptr) : o.call C thr e x y =
    if e.isInv then o.invWith C thr e.mode x y else o.fwdWith C thr e.mode x y := by
  cases e <;> rfl

/-- a transform of a set up object on arrays outside the object -/
theorem RFFT.call_good {thr : Thr} {o : RFFT} {n : Nat} {e : Entry} {x y : Ptr} {v : Nat → C} {h : Heap C}
    (hn : RealLen n) (hr : o.Ready C thr n h)
    (hax : Arr h x (rfftNeed e n) v) (hal : Alloc h x n) (hay : Alloc h y n) (hxy : Sep x n y n)
    (hx0 : x.buf ≠ 0) (hy0 : y.buf ≠ 0) (hx : x.buf ∉ o.blocks) (hy : y.buf ∉ o.blocks) :
    ∃ h', Good (Region x n ∪ Region y n ∪ {l | l.1 ∈ insert 0 {b | b ∈ o.blocks}}) (rfftDirty e n x y)
        (o.call C thr e x y) h h' ∧
      Arr h' y n (rfftOut C thr e n v) ∧ ∀ l, l ∉ rfftDirty e n x y → h' l = h l := by
  rw [RFFT.call_eq]
  obtain ⟨b, hw, hU, hT⟩ := hr.weight
  have hbb : b ∈ o.blocks := by simp [RFFT.blocks, hw]
  rcases hn with rfl | ⟨m, rfl, hm, -⟩
  · -- length 1
    have hx1 : h x.loc = some (some (v 0)) := by
      have : rfftNeed e 1 = 1 := by unfold rfftNeed; split <;> rfl
      rw [this] at hax
      exact hax 0 (by omega)
    have hD : (y + 0).loc ∈ rfftDirty e 1 x y := by
      unfold rfftDirty; split
      · exact Or.inr (mem_region (by omega))
      · exact mem_region (by omega)
    have g : Good (Region x 1 ∪ Region y 1 ∪ {l | l.1 ∈ insert 0 {b | b ∈ o.blocks}}) (rfftDirty e 1 x y)
        [[.load x.loc fun a => .store y.loc (ofD C (CArith.re a)) (.ret ())]] h
        (h.set (y + 0).loc (ofD C (CArith.re (v 0)))) :=
      Good.single (.load (Or.inl (Or.inl (mem_region (i := 0) (by omega)))) hx1 (.store hD (hay 0 (by omega)) .ret))
    refine ⟨h.set (y + 0).loc (ofD C (CArith.re (v 0))), ?_, ?_, ?_⟩
    · have e1 : ∀ mode, o.fwdWith C thr mode x y =
          [[.load x.loc fun a => .store y.loc (ofD C (CArith.re a)) (.ret ())]] := by
        intro mode; unfold RFFT.fwdWith; simp [hr.len]
      have e2 : ∀ mode, o.invWith C thr mode x y =
          [[.load x.loc fun a => .store y.loc (ofD C (CArith.re a)) (.ret ())]] := by
        intro mode; unfold RFFT.invWith; simp [hr.len]
      rw [e1, e2, ite_self]
      exact g
    · intro i hi
      have : i = 0 := by omega
      subst this
      rw [Heap.set_same, rfftOut, if_pos rfl]
    · intro l hl
      refine Heap.set_ne _ _ ?_
      rintro rfl
      exact hl hD
  · have h2 := hm.two
    have e2 : 2 * m / 2 = m := by omega
    have hfr := hr.fft
    rw [e2] at hfr
    have haU : Arr h o.U (2 * m + 1) (rfftTab C (2 * m)) := by rw [hU]; exact hT (by omega)
    have hRU : Region o.U (2 * m + 1) ⊆
        Region x (2 * m) ∪ Region y (2 * m) ∪ {l | l.1 ∈ insert 0 {b | b ∈ o.blocks}} := by
      rintro l ⟨i, _, rfl⟩
      rw [hU]
      exact Or.inr (Or.inr hbb)
    have hRo : ∀ l : Loc, l.1 ∈ insert 0 {b | b ∈ o.fft.blocks} →
        l ∈ Region x (2 * m) ∪ Region y (2 * m) ∪ {l | l.1 ∈ insert 0 {b | b ∈ o.blocks}} := by
      rintro l (h | h)
      · exact Or.inr (Or.inl h)
      · exact Or.inr (Or.inr (List.mem_append_left _ h))
    have notin : ∀ {p : Ptr}, p.buf ≠ 0 → p.buf ∉ o.blocks → p.buf ∉ insert 0 {b | b ∈ o.fft.blocks} := by
      rintro p h0 hb (h | h)
      · exact h0 h
      · exact hb (List.mem_append_left _ h)
    have hUne : ∀ {p : Ptr}, p.buf ∉ o.blocks → o.U.buf ≠ p.buf := by
      rintro p hb e
      rw [hU] at e
      exact hb (e ▸ hbb)
    unfold rfftOut
    rw [if_neg (by omega : ¬ (2 * m = 1)), e2]
    cases he : e.isInv with
    | true =>
      simp only [rfftNeed, rfftDirty, he, if_true, e2] at hax ⊢
      obtain ⟨h', g, a, f⟩ := rfftInv_good (R := Region x (2 * m) ∪ Region y (2 * m) ∪ {l | l.1 ∈ insert 0 {b | b ∈ o.blocks}})
        (D := Region x (2 * m) ∪ Region y (2 * m)) (mode := e.mode) hr.len hm hfr haU hax hal hay hxy (notin hx0 hx) (hUne hx)
        (Set.subset_union_left.trans Set.subset_union_left) hRo hRU
        Set.subset_union_left Set.subset_union_right
      exact ⟨h', g, a, fun l hl => f l (fun h => hl (Or.inl h)) (fun h => hl (Or.inr h))⟩
    | false =>
      simp only [rfftNeed, rfftDirty, he, if_false, Bool.false_eq_true] at hax ⊢
      exact rfftFwd_good hr.len hm hfr haU hax hay hxy (notin hy0 hy) (hUne hy)
        (Set.subset_union_left.trans Set.subset_union_left)
        (Set.subset_union_right.trans Set.subset_union_left) hRo hRU (le_refl _)

theorem RFFT.dirty_sub (e : Entry) (n : Nat) (x y : Ptr) : rfftDirty e n x y ⊆ Region x n ∪ Region y n := by
  unfold rfftDirty
  split
  · exact le_refl _
  · exact Set.subset_union_right

theorem RFFT.not_dirty {e : Entry} {n : Nat} {x y : Ptr} {l : Loc} (h1 : l.1 ≠ x.buf) (h2 : l.1 ≠ y.buf) :
    l ∉ rfftDirty e n x y := by
  intro h
  rcases RFFT.dirty_sub e n x y h with ⟨i, _, rfl⟩ | ⟨i, _, rfl⟩
  · exact h1 rfl
  · exact h2 rfl

/-- one transform: result, frame, and the object is ready for more -/
theorem RFFT.call_spec {thr : Thr} {E : Set Nat} {w : World C} {o : RFFT} {n : Nat} {bs : List Nat}
    {e : Entry} {x y : Ptr} {v : Nat → C} (hn : RealLen n) (ow : Owned E bs w) 
    (hr : o.Ready C thr n w.heap)
    (hax : Arr w.heap x (rfftNeed e n) v) (hal : Alloc w.heap x n) (hay : Alloc w.heap y n) (hxy : Sep x n y n)
    (hx : x.buf ∉ o.blocks) (hy : y.buf ∉ o.blocks) :
    (Act.exec (o.call C thr e x y)).wp (fun _ w' => Owned E bs w' ∧
      Arr w'.heap y n (rfftOut C thr e n v) ∧
      (∀ l : Loc, l ∉ rfftDirty e n x y → w'.heap l = w.heap l) ∧
      o.Ready C thr n w'.heap ∧ KeepsInit E w.heap w'.heap) w := by
  have hpos : 0 < n := by
    rcases hn with rfl | ⟨m, rfl, hm, -⟩
    · omega
    · have := hm.two; omega
  have hx0 := ow.wf.buf_ne hpos hal
  have hy0 := ow.wf.buf_ne hpos hay
  obtain ⟨h', g, a, f⟩ := RFFT.call_good hn hr hax hal hay hxy hx0 hy0 hx hy
  refine Act.wp_exec g ⟨ow.ran g, a, f, hr.frame fun l hl => f l (RFFT.not_dirty ?_ ?_), g.keeps E⟩
  · rintro h
    rcases hl with h0 | h0
    · exact hx0 (h ▸ h0)
    · exact hx (h ▸ h0)
  · rintro h
    rcases hl with h0 | h0
    · exact hy0 (h ▸ h0)
    · exact hy (h ▸ h0)

theorem KeepsInit.of_out {E : Set Nat} {h h' : Heap C} {y : Ptr} {n : Nat} {u : Nat → C}
    (a : Arr h' y n u) (f : ∀ l : Loc, l ∉ Region y n → h' l = h l) : KeepsInit E h h' :=
  keepsInit_of_arr a fun l _ hl => f l hl

/-- arguments of a RealFFT call: the part of `x` that is read holds values, `x` and `y` are different arrays
of length `n` -/
structure RFFT.Valid (n : Nat) (c : Entry × Ptr × Ptr) (E : Set Nat) (h : Heap C) : Prop where
  len : RealLen n
  arr : Filled h c.2.1 (rfftNeed c.1 n)
  allocx : Alloc h c.2.1 n
  allocy : Alloc h c.2.2 n
  sep : Sep c.2.1 n c.2.2 n
  userx : c.2.1.buf ∈ E
  usery : c.2.2.buf ∈ E

theorem Alloc.keeps {E : Set Nat} {h h' : Heap C} {p : Ptr} {n : Nat} (f : Alloc h p n)
    (k : KeepsInit E h h') (hp : p.buf ∈ E) : Alloc h' p n := fun i hi => (k _ hp).1 (f i hi)

def realFFTSpec (C : Type) [CArith F C] [Inhabited C] (thr : Thr) : ClsSpec (realFFT C thr) where
  blocks := RFFT.blocks
  Ready := RFFT.Ready C thr
  SetupOK := intLen
  Valid := RFFT.Valid
  valid_keeps := fun v k => ⟨v.len, v.arr.keeps k v.userx, v.allocx.keeps k v.userx, v.allocy.keeps k v.usery,
    v.sep, v.userx, v.usery⟩
  create_spec := by
    intro E w n hn ow
    refine Act.wp_mono (RFFT.create_spec hn ow) ?_
    rintro r w' ⟨s, h⟩
    refine ⟨s.mono Set.subset_union_left, ?_⟩
    cases r with
    | none => exact h
    | some o => exact ⟨by simpa using h.1, h.2⟩
  setup_spec := by
    intro E w o n hn ow
    refine Act.wp_mono (RFFT.setup_spec hn (rest := []) ow (by simp)) ?_
    rintro r w' ⟨a, b, c⟩
    exact ⟨by simpa using a, b.mono Set.subset_union_left, c⟩
  call_spec := by
    rintro E w o n ⟨e, x, y⟩ ow hr hv
    obtain ⟨v, hax⟩ := hv.arr.arr
    refine Act.wp_mono (RFFT.call_spec hv.len ow hr hax hv.allocx hv.allocy hv.sep
      (fun h => ow.disj _ h hv.userx) (fun h => ow.disj _ h hv.usery)) ?_
    rintro _ w' ⟨a, b, c, d, k⟩
    exact ⟨a, k, d⟩
  ready_frame := fun r s => r.frame s
  destroy_spec := by
    intro E w o ow
    refine Act.wp_mono (RFFT.destroy_spec (rest := []) ow (by simp)) ?_
    rintro _ w' ⟨a, b⟩
    exact ⟨a, b.mono Set.subset_union_left⟩

/-! ### allocation failures -/

theorem RFFT.setup_noFail {thr : Thr} {o : RFFT} {n : Int} (hn : -1 ≤ n) :
    (o.setup C thr n).NoFail fun r => r.2 = false := by
  unfold RFFT.setup
  refine Act.NoFail_seq (FFT0.setup_noFail (by have := tdiv_two n; omega)) ?_
  rintro ⟨r, t⟩ ht
  simp only at ht
  subst ht
  exact Act.int_noFail (SArr.setupI_seq (by omega) fun b => Act.NoFail_seq (m := Act.exec _) (P := fun _ => True) trivial fun _ _ => rfl)

theorem RFFT.destroy_noFail {o : RFFT} {P : Unit → Prop} (h : P ()) : (o.destroy C).NoFail P := by
  unfold RFFT.destroy
  rw [Act.NoFail_bind, SArr.release_noFail]
  exact FFT0.reset_noFail h

theorem RFFT.create_noFail {thr : Thr} {n : Int} (hn : -1 ≤ n) :
    (RFFT.create C thr n).NoFail fun r => r.isSome = true := by
  unfold RFFT.create
  refine Act.NoFail_seq (RFFT.setup_noFail hn) ?_
  rintro ⟨r, t⟩ ht
  simp only at ht
  subst ht
  rfl

theorem RFFT.lifetime_noFail {thr : Thr} (n : Int) (hn : 0 ≤ n) (ops : List (Op C (Entry × Ptr × Ptr)))
    (ho : ∀ op ∈ ops, op.lenNat) :
    ((realFFT C thr).lifetime n ops).NoFail fun r => r = true :=
  Cls.lifetime_noFail (X := realFFT C thr) (fun _ h => RFFT.create_noFail (by omega)) (fun _ _ h => RFFT.setup_noFail (by omega))
    (fun _ => RFFT.destroy_noFail trivial) _ hn _ ho

end OTFFT
