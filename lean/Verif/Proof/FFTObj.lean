/-
`FFT` (= `ComplexFFT`): what construction, `setup`, the transforms and destruction do.
-/
import Verif.Proof.Session

namespace OTFFT

variable {F C : Type} [DArith F] [CArith F C]

/-- a set up `FFT` object of length `n` -/
structure FFT.Ready (C : Type) [CArith F C] (thr : Thr) (o : FFT) (n : Nat) (h : Heap C) : Prop where
  fft : o.fft.Ready C thr n h
  work : ∃ b, o.work = some b ∧ o.y = Ptr.base b ∧ Alloc h (Ptr.base b) n

theorem FFT.Ready.frame {thr : Thr} {o : FFT} {n : Nat} {h h' : Heap C} (r : o.Ready C thr n h)
    (s : Same (insert 0 {b | b ∈ o.blocks}) h h') : o.Ready C thr n h' := by
  refine ⟨r.fft.frame (s.mono ?_), ?_⟩
  · rintro b (h | h)
    · exact Or.inl h
    · exact Or.inr (List.mem_append_left _ h)
  · obtain ⟨b, hw, hy, ha⟩ := r.work
    refine ⟨b, hw, hy, fun i hi => ?_⟩
    rw [s.ptr (p := Ptr.base b) (Or.inr (by simp [FFT.blocks, hw, Ptr.base]))]
    exact ha i hi

theorem mem_union_list {E : Set Nat} {as bs : List Nat} (h : ∀ b ∈ as, b ∈ bs) :
    E ∪ {b | b ∈ as} ⊆ E ∪ {b | b ∈ bs} := by
  rintro b (h' | h')
  · exact Or.inl h'
  · exact Or.inr (h b h')

theorem FFT.setup_spec {thr : Thr} {E : Set Nat} {w : World C} {o : FFT} {n : Int} {bs rest : List Nat}
    (hn : intLen n) (ow : Owned E bs w) (hp : bs.Perm (o.blocks ++ rest)) :
    (o.setup C thr n).wp (fun r w' => Owned E (r.1.blocks ++ rest) w' ∧
      Same (E ∪ {b | b ∈ rest}) w.heap w'.heap ∧
      (r.2 = false → r.1.Ready C thr n.toNat w'.heap)) w := by
  unfold FFT.setup
  refine Act.wp_seq (FFT0.setup_spec hn.1 (by have := hn.2; omega) (rest := o.work.toList ++ rest) ow
    (hp.trans (by simp [FFT.blocks]))) ?_
  rintro ⟨f, t⟩ w1 ⟨o1, s1, t1, r1⟩
  have s1' : Same (E ∪ {b | b ∈ rest}) w.heap w1.heap := s1.mono (mem_union_list (by simp; tauto))
  cases t with
  | true => exact ⟨o1.perm (by simp [FFT.blocks]), s1', by simp⟩
  | false =>
    simp only [Bool.false_eq_true, if_false]
    refine Act.wp_seq (sarr_setupI_spec (a := o.work) (rest := f.blocks ++ rest) o1 ?_) ?_
    · refine List.perm_iff_count.2 fun a => ?_
      simp only [List.count_append]; omega
    · rintro r w2 ⟨o2, s2, al⟩
      have s2' : Same (E ∪ {b | b ∈ rest}) w1.heap w2.heap := s2.mono (mem_union_list (by simp; tauto))
      have o2' : Owned E (f.blocks ++ r.toList ++ rest) w2 := o2.perm (by
        refine List.perm_iff_count.2 fun a => ?_
        simp only [List.count_append]; omega)
      cases r with
      | none => exact ⟨o2', s1'.trans s2', by simp⟩
      | some b =>
        refine ⟨o2', s1'.trans s2', fun _ => ⟨?_, b, rfl, rfl, (al b rfl).2⟩⟩
        refine (r1 rfl).frame ((s2.null o1.wf o2.wf).mono ?_)
        rintro c (h | h)
        · exact Or.inl h
        · exact Or.inr (Or.inr (List.mem_append_left _ h))

theorem FFT.destroy_spec {E : Set Nat} {w : World C} {o : FFT} {bs rest : List Nat} (ow : Owned E bs w)
    (hp : bs.Perm (o.blocks ++ rest)) :
    (o.destroy C).wp (fun _ w' => Owned E rest w' ∧ Same (E ∪ {b | b ∈ rest}) w.heap w'.heap) w := by
  unfold FFT.destroy
  refine Act.wp_seq (release_spec (a := o.work) (rest := o.fft.blocks ++ rest) ow (hp.trans ?_)) ?_
  · refine List.perm_iff_count.2 fun a => ?_
    simp only [FFT.blocks, List.count_append]; omega
  · rintro _ w1 ⟨o1, s1⟩
    refine Act.wp_mono (FFT0.reset_spec o1 (List.Perm.refl _)) ?_
    rintro _ w2 ⟨o2, s2⟩
    exact ⟨o2, (s1.mono (mem_union_list (by simp; tauto))).trans s2⟩

theorem FFT.create_spec {thr : Thr} {E : Set Nat} {w : World C} {n : Int} {rest : List Nat}
    (hn : intLen n) (ow : Owned E rest w) :
    (FFT.create C thr n).wp (fun r w' => Same (E ∪ {b | b ∈ rest}) w.heap w'.heap ∧ match r with
      | none => Owned E rest w'
      | some o => Owned E (o.blocks ++ rest) w' ∧ o.Ready C thr n.toNat w'.heap) w := by
  unfold FFT.create
  refine Act.wp_seq (FFT0.setup_spec hn.1 (by have := hn.2; omega) (rest := rest) ow (List.Perm.refl _)) ?_
  rintro ⟨f, t⟩ w1 ⟨o1, s1, t1, r1⟩
  cases t with
  | true =>
    refine ⟨s1, ?_⟩
    have : f.blocks = [] := by rw [FFT0.blocks, t1 rfl]; rfl
    simpa [this] using o1
  | false =>
    simp only [Bool.false_eq_true, if_false]
    refine Act.wp_seq (sarr_setupI_spec (a := none) (rest := f.blocks ++ rest) o1 (List.Perm.refl _)) ?_
    rintro r w2 ⟨o2, s2, al⟩
    have s2' : Same (E ∪ {b | b ∈ rest}) w1.heap w2.heap := s2.mono (mem_union_list (by simp; tauto))
    cases r with
    | none =>
      refine Act.wp_seq (FFT0.reset_spec o2 (List.Perm.refl _)) ?_
      rintro _ w3 ⟨o3, s3⟩
      exact ⟨(s1.trans s2').trans s3, o3⟩
    | some b =>
      refine ⟨s1.trans s2', o2.perm (by
        refine List.perm_iff_count.2 fun a => ?_
        simp only [FFT.blocks, List.count_append, Option.toList]; omega), ⟨?_, b, rfl, rfl, (al b rfl).2⟩⟩
      refine (r1 rfl).frame ((s2.null o1.wf o2.wf).mono ?_)
      rintro c (h | h)
      · exact Or.inl h
      · exact Or.inr (Or.inr (List.mem_append_left _ h))

theorem World.WF.buf_ne {w : World C} (hw : w.WF) {x : Ptr} {n : Nat} (hn : 0 < n) (ha : Alloc w.heap x n) :
    x.buf ≠ 0 := by
  intro h
  exact ha 0 hn (hw.dead _ (by show x.buf ∉ _; rw [h]; exact hw.null))

/-- what is in an allocated array belongs to an allocated block -/
theorem World.WF.buf_live {w : World C} (hw : w.WF) {x : Ptr} {n : Nat} (hn : 0 < n) (ha : Alloc w.heap x n) :
    x.buf ∈ w.live := by
  by_contra h
  exact ha 0 hn (hw.dead _ h)

/-- a transform of a set up object on an array outside the object -/
theorem FFT.call_good {thr : Thr} {E : Set Nat} {w : World C} {o : FFT} {n : Nat} {bs rest : List Nat}
    {e : Entry} {x : Ptr} {v : Nat → C} (hn : ValidLen n) (ow : Owned E bs w)
    (hp : bs.Perm (o.blocks ++ rest))
    (hr : o.Ready C thr n w.heap) (hax : Arr w.heap x n v) (hx : x.buf ∉ o.blocks) :
    ∃ h', Good (Region x n ∪ {l | l.1 ∈ insert 0 {b | b ∈ o.blocks}}) (Region x n ∪ Region o.y n)
        (o.call C thr e x) w.heap h' ∧
      Arr h' x n (fftOut C thr e.isInv e.mode n v) ∧
      ∀ l, l ∉ Region x n → l ∉ Region o.y n → h' l = w.heap l := by
  obtain ⟨b, hw, hy, ha⟩ := hr.work
  have h2 := hn.two
  have ow := ow.perm hp
  have h0 : x.buf ≠ 0 := ow.wf.buf_ne (by omega) hax.alloc
  have h0' : b ≠ 0 := ow.wf.buf_ne (x := Ptr.base b) (by omega) ha
  have hb : b ∉ o.fft.blocks := by
    intro hb
    have := ow.nodup
    rw [FFT.blocks, hw] at this
    exact (List.nodup_append.1 (List.nodup_append.1 this).1).2.2 b hb b (by simp) rfl
  have hbb : b ∈ o.blocks := by simp [FFT.blocks, hw]
  have hxf : x.buf ∉ o.fft.blocks := fun h => hx (List.mem_append_left _ h)
  unfold FFT.call
  rw [hy]
  refine FFT0.call_good hn hr.fft hax ha (Sep.of_buf (by rintro rfl; exact hx hbb) _ _) ?_ ?_
    Set.subset_union_left ?_ ?_ Set.subset_union_left Set.subset_union_right
  · rintro (h | h)
    · exact h0 h
    · exact hxf h
  · rintro (h | h)
    · exact h0' h
    · exact hb h
  · rintro l ⟨i, _, rfl⟩
    exact Or.inr (Or.inr hbb)
  · rintro l (h | h)
    · exact Or.inr (Or.inl h)
    · exact Or.inr (Or.inr (List.mem_append_left _ h))

theorem FFT.Ready.y_mem {thr : Thr} {o : FFT} {n : Nat} {h : Heap C} (r : o.Ready C thr n h) :
    o.y.buf ∈ o.blocks := by
  obtain ⟨b, hw, hy, _⟩ := r.work
  simp [FFT.blocks, hw, hy, Ptr.base]

/-- the object is still ready after code that wrote only its work area and things outside it -/
theorem FFT.Ready.ran {thr : Thr} {o : FFT} {n : Nat} {h h' : Heap C} (r : o.Ready C thr n h)
    (hnd : o.blocks.Nodup) (h0 : 0 ∉ o.blocks)
    (s : ∀ l : Loc, l.1 ∈ insert 0 {b | b ∈ o.blocks} → l ∉ Region o.y n → h' l = h l)
    (hal : ∀ l, h l ≠ none → h' l ≠ none) : o.Ready C thr n h' := by
  obtain ⟨b, hw, hy, ha⟩ := r.work
  rw [FFT.blocks, hw] at hnd
  have hb : b ∉ o.fft.blocks := fun hb => (List.nodup_append.1 hnd).2.2 b hb b (by simp) rfl
  have hb0 : b ≠ 0 := by rintro rfl; exact h0 (by simp [FFT.blocks, hw])
  refine ⟨r.fft.frame fun l hl => s l ?_ ?_, b, hw, hy, fun i hi => hal _ (ha i hi)⟩
  · rcases hl with h | h
    · exact Or.inl h
    · exact Or.inr (List.mem_append_left _ h)
  · rintro ⟨i, _, rfl⟩
    rw [hy] at hl
    rcases hl with h | h
    · exact hb0 h
    · exact hb h

/-- one transform of a set up object: result, and the object is ready for more -/
theorem FFT.call_spec {thr : Thr} {E : Set Nat} {w : World C} {o : FFT} {n : Nat} {rest : List Nat}
    {e : Entry} {x : Ptr} {v : Nat → C} (hn : ValidLen n) (ow : Owned E (o.blocks ++ rest) w)
    (hr : o.Ready C thr n w.heap) (hax : Arr w.heap x n v) (hx : x.buf ∉ o.blocks) :
    (Act.exec (o.call C thr e x)).wp (fun _ w' => Owned E (o.blocks ++ rest) w' ∧
      Arr w'.heap x n (fftOut C thr e.isInv e.mode n v) ∧
      (∀ l : Loc, l.1 ∉ o.blocks → l ∉ Region x n → w'.heap l = w.heap l) ∧
      o.Ready C thr n w'.heap) w := by
  obtain ⟨h', g, a, f⟩ := FFT.call_good (e := e) hn ow (List.Perm.refl _) hr hax hx
  have fr : ∀ l : Loc, l.1 ∉ o.blocks → l ∉ Region x n → h' l = w.heap l := by
    intro l h1 h2
    refine f l h2 ?_
    rintro ⟨i, _, rfl⟩
    exact h1 hr.y_mem
  refine Act.wp_exec g ⟨ow.ran g, a, fr, ?_⟩
  have h0 : 0 ∉ o.blocks := fun h => ow.wf.null ((ow.live_iff 0).2 (Or.inr (List.mem_append_left _ h)))
  refine hr.ran (List.nodup_append.1 ow.nodup).1 h0 (fun l hl hy => f l ?_ hy) fun l hl => ?_
  · rintro ⟨i, _, rfl⟩
    rcases hl with h | h
    · exact ow.wf.buf_ne (by have := hn.two; omega) hax.alloc h
    · exact hx h
  · exact g.alloc l hl

/-- arguments of a ComplexFFT call: a filled user array of length `n` -/
structure FFT.Valid (n : Nat) (c : Entry × Ptr) (E : Set Nat) (h : Heap C) : Prop where
  len : ValidLen n
  arr : Filled h c.2 n
  user : c.2.buf ∈ E

theorem keepsInit_of_arr {E : Set Nat} {h h' : Heap C} {x : Ptr} {n : Nat} {u : Nat → C}
    (a : Arr h' x n u) (f : ∀ l : Loc, l.1 ∈ E → l ∉ Region x n → h' l = h l) : KeepsInit E h h' := by
  intro l hl
  by_cases hm : l ∈ Region x n
  · obtain ⟨i, hi, rfl⟩ := hm; rw [a i hi]; simp
  · rw [f l hl hm]; exact ⟨id, id⟩

def complexFFTSpec (C : Type) [CArith F C] [Inhabited C] (thr : Thr) : ClsSpec (complexFFT C thr) where
  blocks := FFT.blocks
  Ready := FFT.Ready C thr
  SetupOK := intLen
  Valid := FFT.Valid
  valid_keeps := fun v k => ⟨v.len, v.arr.keeps k v.user, v.user⟩
  create_spec := by
    intro E w n hn ow
    refine Act.wp_mono (FFT.create_spec hn ow) ?_
    rintro r w' ⟨s, h⟩
    refine ⟨s.mono Set.subset_union_left, ?_⟩
    cases r with
    | none => exact h
    | some o => exact ⟨by simpa using h.1, h.2⟩
  setup_spec := by
    intro E w o n hn ow
    refine Act.wp_mono (FFT.setup_spec hn (rest := []) ow (by simp)) ?_
    rintro r w' ⟨a, b, c⟩
    exact ⟨by simpa using a, b.mono Set.subset_union_left, c⟩
  call_spec := by
    rintro E w o n ⟨e, x⟩ ow hr hv
    obtain ⟨v, hax⟩ := hv.arr.arr
    have hx : x.buf ∉ FFT.blocks o := fun h => ow.disj _ h hv.user
    refine Act.wp_mono (FFT.call_spec (rest := []) (e := e) hv.len (by simpa using ow) hr hax hx) ?_
    rintro _ w' ⟨a, b, c, d⟩
    exact ⟨by simpa using a, keepsInit_of_arr b fun l hl hn => c l (fun h => ow.disj _ h hl) hn, d⟩
  ready_frame := fun r s => r.frame s
  destroy_spec := by
    intro E w o ow
    refine Act.wp_mono (FFT.destroy_spec (rest := []) ow (by simp)) ?_
    rintro _ w' ⟨a, b⟩
    exact ⟨a, b.mono Set.subset_union_left⟩

end OTFFT
