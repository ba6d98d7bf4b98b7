/-
`DCT` (= `RealDCT`): construction, `setup`, transforms, destruction.
-/
import Verif.Proof.DCTMem

noncomputable section

namespace OTFFT

variable {F C : Type} [DArith F] [CArith F C]

/-- a set up `DCT0` object of length `n` -/
structure DCT0.Ready (C : Type) [CArith F C] (thr : Thr) (o : DCT0) (n : Nat) (h : Heap C) : Prop where
  len : o.N = n
  rfft : o.rfft.Ready C thr n h
  weight : ∃ b, o.weight = some b ∧ o.V = Ptr.base b ∧ (2 ≤ n → Arr h (Ptr.base b) (n + 1) (dctTab C n))

theorem DCT0.Ready.frame {thr : Thr} {o : DCT0} {n : Nat} {h h' : Heap C} (r : o.Ready C thr n h)
    (s : Same (insert 0 {b | b ∈ o.blocks}) h h') : o.Ready C thr n h' := by
  refine ⟨r.len, r.rfft.frame (s.mono ?_), ?_⟩
  · rintro b (h | h)
    · exact Or.inl h
    · exact Or.inr (List.mem_append_left _ h)
  · obtain ⟨b, hw, hy, ha⟩ := r.weight
    refine ⟨b, hw, hy, fun h1 i hi => ?_⟩
    rw [s.ptr (p := Ptr.base b) (Or.inr (by simp [DCT0.blocks, hw, Ptr.base]))]
    exact ha h1 i hi

theorem dctLen.intLen {n : Int} (h : dctLen n) : OTFFT.intLen n := ⟨h.1, by have := h.2; omega⟩

theorem DCT0.setup_spec {thr : Thr} {E : Set Nat} {w : World C} {o : DCT0} {n : Int} {bs rest : List Nat}
    (hn : dctLen n) (ow : Owned E bs w) (hp : bs.Perm (o.blocks ++ rest)) :
    (o.setup C thr n).wp (fun r w' => Owned E (r.1.blocks ++ rest) w' ∧
      Same (E ∪ {b | b ∈ rest}) w.heap w'.heap ∧
      (r.2 = false → r.1.Ready C thr n.toNat w'.heap)) w := by
  have hn1 := hn.1
  have hn2 := hn.2
  unfold DCT0.setup
  refine Act.wp_seq (RFFT.setup_spec hn.intLen (rest := o.weight.toList ++ rest) ow
    (hp.trans (by simp [DCT0.blocks]))) ?_
  rintro ⟨f, t⟩ w1 ⟨o1, s1, r1⟩
  have s1' : Same (E ∪ {b | b ∈ rest}) w.heap w1.heap := s1.mono (mem_union_list (by simp; tauto))
  cases t with
  | true => exact ⟨o1.perm (by simp [DCT0.blocks]), s1', by simp⟩
  | false =>
    simp only [Bool.false_eq_true, if_false]
    refine Act.int_seq (by omega) (by omega) (Act.wp_seq (sarr_setupI_spec (a := o.weight) (rest := f.blocks ++ rest) o1 ?_) ?_)
    · refine List.perm_iff_count.2 fun a => ?_
      simp only [List.count_append]; omega
    · rintro r w2 ⟨o2, s2, al⟩
      have s2' : Same (E ∪ {b | b ∈ rest}) w1.heap w2.heap := s2.mono (mem_union_list (by simp; tauto))
      cases r with
      | none =>
        refine ⟨o2.perm (by
          refine List.perm_iff_count.2 fun a => ?_
          simp only [DCT0.blocks, List.count_append, Option.toList]; omega), s1'.trans s2', by simp⟩
      | some b =>
        have hg : ∃ h', Good Set.univ (Region (Ptr.base b) (n.toNat + 1)) (dctTable C thr n.toNat (Ptr.base b)) w2.heap h' ∧
            (2 ≤ n.toNat → Arr h' (Ptr.base b) (n.toNat + 1) (dctTab C n.toNat)) ∧
            ∀ l, l ∉ Region (Ptr.base b) (n.toNat + 1) → h' l = w2.heap l := by
          by_cases h1 : n < 0
          · have e : dctTable C thr n.toNat (Ptr.base b) = [] := by unfold dctTable; rw [if_pos (by omega)]
            rw [e]
            exact ⟨_, .nil, fun h => absurd h (by omega), fun _ _ => rfl⟩
          · have hal := (al b rfl).2
            rw [show (n + 1).toNat = n.toNat + 1 by omega] at hal
            exact dctTable_good hal (le_refl _)
        have hn3 := (al b rfl).1
        refine Act.int_seq (by omega) (by omega) (Act.wp_seq (table_step o2 hg) ?_)
        rintro _ w3 ⟨o3, s3, t⟩
        refine ⟨o3.perm (by
          show (b :: (f.blocks ++ rest)).Perm _
          refine List.perm_iff_count.2 fun a => ?_
          simp only [DCT0.blocks, List.count_append, List.count_cons, List.count_nil, Option.toList]; omega),
          (s1'.trans s2').trans (s3.mono (mem_union_list (by simp; tauto))), fun _ => ⟨rfl, ?_, b, rfl, rfl, t⟩⟩
        refine (r1 rfl).frame (((s2.null o1.wf o2.wf).trans ((s3.null o2.wf o3.wf))).mono ?_)
        rintro c (h | h)
        · exact Or.inl h
        · exact Or.inr (Or.inr (List.mem_append_left _ h))

theorem DCT0.destroy_spec {E : Set Nat} {w : World C} {o : DCT0} {bs rest : List Nat} (ow : Owned E bs w)
    (hp : bs.Perm (o.blocks ++ rest)) :
    (o.destroy C).wp (fun _ w' => Owned E rest w' ∧ Same (E ∪ {b | b ∈ rest}) w.heap w'.heap) w := by
  unfold DCT0.destroy
  refine Act.wp_seq (release_spec (a := o.weight) (rest := o.rfft.blocks ++ rest) ow (hp.trans ?_)) ?_
  · refine List.perm_iff_count.2 fun a => ?_
    simp only [DCT0.blocks, List.count_append]; omega
  · rintro _ w1 ⟨o1, s1⟩
    refine Act.wp_mono (RFFT.destroy_spec o1 (List.Perm.refl _)) ?_
    rintro _ w2 ⟨o2, s2⟩
    exact ⟨o2, (s1.mono (mem_union_list (by simp; tauto))).trans s2⟩

/-- a set up `DCT` object of length `n` -/
structure DCT.Ready (C : Type) [CArith F C] (thr : Thr) (o : DCT) (n : Nat) (h : Heap C) : Prop where
  dct : o.dct.Ready C thr n h
  work1 : ∃ b, o.work1 = some b ∧ o.y = Ptr.base b ∧ Alloc h (Ptr.base b) n
  work2 : ∃ b, o.work2 = some b ∧ o.z = Ptr.base b ∧ Alloc h (Ptr.base b) n

theorem DCT.Ready.frame {thr : Thr} {o : DCT} {n : Nat} {h h' : Heap C} (r : o.Ready C thr n h)
    (s : Same (insert 0 {b | b ∈ o.blocks}) h h') : o.Ready C thr n h' := by
  refine ⟨r.dct.frame (s.mono ?_), ?_, ?_⟩
  · rintro b (h | h)
    · exact Or.inl h
    · exact Or.inr (List.mem_append_left _ h)
  · obtain ⟨b, hw, hy, ha⟩ := r.work1
    refine ⟨b, hw, hy, fun i hi => ?_⟩
    rw [s.ptr (p := Ptr.base b) (Or.inr (by simp [DCT.blocks, hw, Ptr.base]))]
    exact ha i hi
  · obtain ⟨b, hw, hy, ha⟩ := r.work2
    refine ⟨b, hw, hy, fun i hi => ?_⟩
    rw [s.ptr (p := Ptr.base b) (Or.inr (by simp [DCT.blocks, hw, Ptr.base]))]
    exact ha i hi

theorem DCT.setup_spec {thr : Thr} {E : Set Nat} {w : World C} {o : DCT} {n : Int} {bs rest : List Nat}
    (hn : dctLen n) (ow : Owned E bs w) (hp : bs.Perm (o.blocks ++ rest)) :
    (o.setup C thr n).wp (fun r w' => Owned E (r.1.blocks ++ rest) w' ∧
      Same (E ∪ {b | b ∈ rest}) w.heap w'.heap ∧
      (r.2 = false → r.1.Ready C thr n.toNat w'.heap)) w := by
  unfold DCT.setup
  refine Act.wp_seq (DCT0.setup_spec hn (rest := o.work1.toList ++ (o.work2.toList ++ rest)) ow
    (hp.trans (by simp [DCT.blocks]))) ?_
  rintro ⟨f, t⟩ w1 ⟨o1, s1, r1⟩
  have s1' : Same (E ∪ {b | b ∈ rest}) w.heap w1.heap := s1.mono (mem_union_list (by simp; tauto))
  cases t with
  | true => exact ⟨o1.perm (by simp [DCT.blocks]), s1', by simp⟩
  | false =>
    simp only [Bool.false_eq_true, if_false]
    refine Act.wp_seq (sarr_setupI_spec (a := o.work1) (rest := f.blocks ++ (o.work2.toList ++ rest)) o1 ?_) ?_
    · refine List.perm_iff_count.2 fun a => ?_
      simp only [List.count_append]; omega
    rintro r w2 ⟨o2, s2, al2⟩
    have s2' : Same (E ∪ {b | b ∈ rest}) w1.heap w2.heap := s2.mono (mem_union_list (by simp; tauto))
    cases r with
    | none =>
      exact ⟨o2.perm (by
        refine List.perm_iff_count.2 fun a => ?_
        simp only [DCT.blocks, List.count_append, Option.toList]; omega), s1'.trans s2', by simp⟩
    | some b1 =>
      refine Act.wp_seq (sarr_setupI_spec (a := o.work2) (rest := f.blocks ++ ([b1] ++ rest)) o2 ?_) ?_
      · refine List.perm_iff_count.2 fun a => ?_
        simp only [List.count_append, Option.toList]; omega
      rintro r w3 ⟨o3, s3, al3⟩
      have s3' : Same (E ∪ {b | b ∈ rest}) w2.heap w3.heap := s3.mono (mem_union_list (by simp; tauto))
      cases r with
      | none =>
        exact ⟨o3.perm (by
          refine List.perm_iff_count.2 fun a => ?_
          simp only [DCT.blocks, List.count_append, Option.toList]; omega), (s1'.trans s2').trans s3', by simp⟩
      | some b2 =>
        refine ⟨o3.perm (by
          refine List.perm_iff_count.2 fun a => ?_
          simp only [DCT.blocks, List.count_append, Option.toList]; omega), (s1'.trans s2').trans s3',
          fun _ => ⟨?_, ⟨b1, rfl, rfl, ?_⟩, b2, rfl, rfl, (al3 b2 rfl).2⟩⟩
        · refine (r1 rfl).frame (((s2.null o1.wf o2.wf).mono ?_).trans ((s3.null o2.wf o3.wf).mono ?_))
          · rintro c (h | h)
            · exact Or.inl h
            · exact Or.inr (Or.inr (List.mem_append_left _ h))
          · rintro c (h | h)
            · exact Or.inl h
            · exact Or.inr (Or.inr (List.mem_append_left _ h))
        · intro i hi
          rw [s3 _ (Or.inr (by simp [Ptr.base, Ptr.loc]))]
          exact (al2 b1 rfl).2 i hi

theorem DCT.destroy_spec {E : Set Nat} {w : World C} {o : DCT} {bs rest : List Nat} (ow : Owned E bs w)
    (hp : bs.Perm (o.blocks ++ rest)) :
    (o.destroy C).wp (fun _ w' => Owned E rest w' ∧ Same (E ∪ {b | b ∈ rest}) w.heap w'.heap) w := by
  unfold DCT.destroy
  refine Act.wp_seq (release_spec (a := o.work1) (rest := o.work2.toList ++ (o.dct.blocks ++ rest)) ow (hp.trans ?_)) ?_
  · refine List.perm_iff_count.2 fun a => ?_
    simp only [DCT.blocks, List.count_append]; omega
  rintro _ w1 ⟨o1, s1⟩
  refine Act.wp_seq (release_spec (a := o.work2) (rest := o.dct.blocks ++ rest) o1 (List.Perm.refl _)) ?_
  rintro _ w2 ⟨o2, s2⟩
  refine Act.wp_mono (DCT0.destroy_spec o2 (List.Perm.refl _)) ?_
  rintro _ w3 ⟨o3, s3⟩
  exact ⟨o3, ((s1.mono (mem_union_list (by simp; tauto))).trans (s2.mono (mem_union_list (by simp; tauto)))).trans s3⟩

theorem DCT.create_spec {thr : Thr} {E : Set Nat} {w : World C} {n : Int} {rest : List Nat}
    (hn : dctLen n) (ow : Owned E rest w) :
    (DCT.create C thr n).wp (fun r w' => Same (E ∪ {b | b ∈ rest}) w.heap w'.heap ∧ match r with
      | none => Owned E rest w'
      | some o => Owned E (o.blocks ++ rest) w' ∧ o.Ready C thr n.toNat w'.heap) w := by
  unfold DCT.create
  refine Act.wp_seq (DCT.setup_spec hn (o := DCT.empty) (rest := rest) ow (List.Perm.refl _)) ?_
  rintro ⟨f, t⟩ w1 ⟨o1, s1, r1⟩
  cases t with
  | true =>
    refine Act.wp_seq (release_spec (a := f.work2) (rest := f.work1.toList ++ (f.dct.blocks ++ rest)) o1 ?_) ?_
    · refine List.perm_iff_count.2 fun a => ?_
      simp only [DCT.blocks, List.count_append]; omega
    rintro _ w2 ⟨o2, s2⟩
    refine Act.wp_seq (release_spec (a := f.work1) (rest := f.dct.blocks ++ rest) o2 (List.Perm.refl _)) ?_
    rintro _ w3 ⟨o3, s3⟩
    refine Act.wp_seq (DCT0.destroy_spec o3 (List.Perm.refl _)) ?_
    rintro _ w4 ⟨o4, s4⟩
    exact ⟨((s1.trans (s2.mono (mem_union_list (by simp; tauto)))).trans (s3.mono (mem_union_list (by simp; tauto)))).trans s4, o4⟩
  | false => exact ⟨s1, o1, r1 rfl⟩

/-! ### transforms -/

def DctEntry.isInv : DctEntry → Bool
  | .fwd | .fwd0 | .fwdn => false
  | .inv | .inv0 | .invn => true

/-- the real transform used -/
def DctEntry.real : DctEntry → Entry
  | .fwd | .fwdn => .fwd
  | .fwd0 => .fwd0
  | .inv | .inv0 => .inv
  | .invn => .invn

/-- what a transform of `RealDCT` computes, any arithmetic -/
def dctOut (C : Type) [CArith F C] (thr : Thr) (e : DctEntry) (n : Nat) (v : Nat → C) : Nat → C :=
  if n = 1 then v
  else if e.isInv then dctScat (n / 2) (rfftOut C thr e.real n (dctPreV C n (dctTab C n) v))
  else dctTw C (dctTab C n) (rfftOut C thr e.real n (dctGath (n / 2) v))

theorem DCT.call_eq (thr : Thr) (o : DCT) (e : DctEntry) (x : Ptr) : o.call C thr e x =
    if e.isInv then o.dct.invWith C thr e.real x o.y o.z else o.dct.fwdWith C thr e.real x o.y o.z := by
  cases e <;> rfl

theorem rfftNeed_le {e : Entry} {n : Nat} (h : RealLen n) : rfftNeed e n ≤ n := by
  unfold rfftNeed; split
  · rcases h with rfl | ⟨m, rfl, hm, -⟩
    · omega
    · have := hm.two; omega
  · omega

theorem DCT.Ready.bufs {thr : Thr} {o : DCT} {n : Nat} {h : Heap C} (hr : o.Ready C thr n h) (nd : o.blocks.Nodup) :
    o.y.buf ∈ o.blocks ∧ o.z.buf ∈ o.blocks ∧ o.dct.V.buf ∈ o.blocks ∧ (∀ b ∈ o.dct.rfft.blocks, b ∈ o.blocks) ∧
    o.y.buf ≠ o.z.buf ∧ o.y.buf ≠ o.dct.V.buf ∧ o.z.buf ≠ o.dct.V.buf ∧
    o.y.buf ∉ o.dct.rfft.blocks ∧ o.z.buf ∉ o.dct.rfft.blocks ∧ o.dct.V.buf ∉ o.dct.rfft.blocks := by
  obtain ⟨b1, e1, e1', -⟩ := hr.work1
  obtain ⟨b2, e2, e2', -⟩ := hr.work2
  obtain ⟨b3, e3, e3', -⟩ := hr.dct.weight
  rw [e1', e2', e3']
  unfold DCT.blocks DCT0.blocks at nd ⊢
  rw [e1, e2, e3] at nd ⊢
  simp only [Ptr.base, Option.toList, List.nodup_append, List.mem_append, List.mem_singleton, List.nodup_cons, List.not_mem_nil] at nd ⊢
  obtain ⟨⟨_, _, h3⟩, ⟨_, _, h5⟩, h6⟩ := nd
  refine ⟨by simp, by simp, by simp, fun b hb => Or.inl (Or.inl hb), h5 b1 rfl b2 rfl,
    fun e => h6 b3 (Or.inr rfl) b1 (Or.inl rfl) e.symm, fun e => h6 b3 (Or.inr rfl) b2 (Or.inr rfl) e.symm,
    fun h => h6 b1 (Or.inl h) b1 (Or.inl rfl) rfl, fun h => h6 b2 (Or.inl h) b2 (Or.inr rfl) rfl,
    fun h => h3 b3 h b3 rfl rfl⟩

theorem DCT0.call_eq (thr : Thr) (o : DCT0) (e : DctEntry) (x y z : Ptr) : o.call C thr e x y z =
    if e.isInv then o.invWith C thr e.real x y z else o.fwdWith C thr e.real x y z := by
  cases e <;> rfl

/-- a transform of a set up `DCT0` with work areas outside the object -/
theorem DCT0.call_good {thr : Thr} {o : DCT0} {n : Nat} {e : DctEntry} {x y z : Ptr} {v : Nat → C} {h : Heap C}
    (hn : RealLen n) (hr : o.Ready C thr n h) (hax : Arr h x n v) (ay : Alloc h y n) (az : Alloc h z n)
    (xy : Sep x n y n) (xz : Sep x n z n) (yz : Sep y n z n)
    (hy0 : y.buf ≠ 0) (hz0 : z.buf ≠ 0)
    (hx : x.buf ∉ o.blocks) (hy : y.buf ∉ o.blocks) (hz : z.buf ∉ o.blocks) :
    ∃ h', Good (Region x n ∪ Region y n ∪ Region z n ∪ {l | l.1 ∈ insert 0 {b | b ∈ o.blocks}})
        (Region x n ∪ Region y n ∪ Region z n) (o.call C thr e x y z) h h' ∧
      Arr h' x n (dctOut C thr e n v) ∧ ∀ l, l ∉ Region x n ∪ Region y n ∪ Region z n → h' l = h l := by
  rw [DCT0.call_eq]
  rcases hn with rfl | ⟨m, rfl, hm, hi⟩
  · -- length 1
    refine ⟨h, ?_, ?_, fun _ _ => rfl⟩
    · have e1 : ∀ re, o.fwdWith C thr re x y z = [] := by
        intro re; unfold DCT0.fwdWith; simp [hr.len]
      have e2 : ∀ re, o.invWith C thr re x y z = [] := by
        intro re; unfold DCT0.invWith; simp [hr.len]
      rw [e1, e2, ite_self]
      exact .nil
    · simpa [dctOut] using hax
  have h2 := hm.two
  have hn : RealLen (2 * m) := Or.inr ⟨m, rfl, hm, hi⟩
  have e2 : 2 * m / 2 = m := by omega
  obtain ⟨b3, e3, eV, aV⟩ := hr.weight
  have bV : o.V.buf ∈ o.blocks := by rw [eV]; simp [DCT0.blocks, e3, Ptr.base]
  have xV : x.buf ≠ o.V.buf := fun h => hx (h ▸ bV)
  have yV : y.buf ≠ o.V.buf := fun h => hy (h ▸ bV)
  have zV : z.buf ≠ o.V.buf := fun h => hz (h ▸ bV)
  rw [← eV] at aV
  have aV := aV (by omega)
  have bR : ∀ b ∈ o.rfft.blocks, b ∈ o.blocks := fun b hb => List.mem_append_left _ hb
  have yR : y.buf ∉ o.rfft.blocks := fun h => hy (bR _ h)
  have zR : z.buf ∉ o.rfft.blocks := fun h => hz (bR _ h)
  set R : Set Loc := Region x (2 * m) ∪ Region y (2 * m) ∪ Region z (2 * m) ∪ {l | l.1 ∈ insert 0 {b | b ∈ o.blocks}} with hR
  set D : Set Loc := Region x (2 * m) ∪ Region y (2 * m) ∪ Region z (2 * m) with hD
  have rV : Region o.V (2 * m + 1) ⊆ R := by
    rintro l ⟨i, _, rfl⟩
    exact Or.inr (Or.inr bV)
  have dX : Region x (2 * m) ⊆ D := fun l h => Or.inl (Or.inl h)
  have dY : Region y (2 * m) ⊆ D := fun l h => Or.inl (Or.inr h)
  have dZ : Region z (2 * m) ⊆ D := fun l h => Or.inr h
  have rX : Region x (2 * m) ⊆ R := fun l h => Or.inl (dX h)
  have rY : Region y (2 * m) ⊆ R := fun l h => Or.inl (dY h)
  have rZ : Region z (2 * m) ⊆ R := fun l h => Or.inl (dZ h)
  have rfR : Region y (2 * m) ∪ Region z (2 * m) ∪ {l | l.1 ∈ insert 0 {b | b ∈ o.rfft.blocks}} ⊆ R := by
    rintro l ((h | h) | h | h)
    · exact rY h
    · exact rZ h
    · exact Or.inr (Or.inl h)
    · exact Or.inr (Or.inr (bR _ h))
  have rfR' : Region z (2 * m) ∪ Region y (2 * m) ∪ {l | l.1 ∈ insert 0 {b | b ∈ o.rfft.blocks}} ⊆ R := by
    rw [Set.union_comm (Region z _)]; exact rfR
  -- frames of the real transform's own blocks
  have rframe : ∀ {h h' : Heap C} {p : Ptr} {k : Nat}, o.rfft.Ready C thr (2 * m) h → (∀ l, l ∉ Region p k → h' l = h l) →
      p.buf ∉ o.rfft.blocks → p.buf ≠ 0 → o.rfft.Ready C thr (2 * m) h' := by
    intro h h' p k hrr hf hp hp0
    refine hrr.frame fun l hl => hf l ?_
    rintro ⟨i, _, rfl⟩
    rcases hl with h | h
    · exact hp0 h
    · exact hp h
  unfold dctOut
  rw [if_neg (by omega : ¬ (2 * m = 1)), e2]
  cases he : e.isInv with
  | false =>
    simp only [Bool.false_eq_true, if_false]
    have hri : e.real.isInv = false := by cases e <;> first | rfl | cases he
    unfold DCT0.fwdWith
    simp only [hr.len, e2]
    rw [if_neg (by omega)]
    obtain ⟨h1, g1, a1, f1⟩ := dctGather_good (R := R) (D := D) hax ay xy rX dY (!decide (2 * m < thr.api))
    obtain ⟨h2', g2, a2, f2⟩ := RFFT.call_good (e := e.real) hn (rframe hr.rfft f1 yR hy0)
      (fun i hi => a1 i (lt_of_lt_of_le hi (rfftNeed_le hn))) a1.alloc (fun i hi => g1.alloc _ (az i hi))
      yz hy0 hz0 yR zR
    have hd : rfftDirty e.real (2 * m) y z = Region z (2 * m) := by unfold rfftDirty; rw [hri]; rfl
    rw [hd] at g2 f2
    have aV2 : Arr h2' o.V (2 * m + 1) (dctTab C (2 * m)) := fun i hi => by
      rw [f2 _ (not_region_buf zV.symm), f1 _ (not_region_buf yV.symm)]; exact aV i hi
    obtain ⟨h3, g3, a3, f3⟩ := dctTwiddle_good (R := R) (D := D) (x := x) a2 aV2
      (fun i hi => g2.alloc _ (g1.alloc _ (hax.alloc i hi))) xz xV rZ rV dX (!decide (2 * m < thr.api))
    refine ⟨h3, (g1.append (g2.mono rfR dZ)).append g3, a3, fun l hl => ?_⟩
    rw [f3 l (fun h => hl (dX h)), f2 l (fun h => hl (dZ h)), f1 l (fun h => hl (dY h))]
  | true =>
    simp only [if_true]
    have hri : e.real.isInv = true := by cases e <;> first | rfl | cases he
    unfold DCT0.invWith
    simp only [hr.len, e2]
    rw [if_neg (by omega)]
    obtain ⟨h1, g1, a1, f1⟩ := dctPre_good (R := R) (D := D) (by omega) hax aV az xz zV rX rV dZ (!decide (2 * m < thr.api))
    obtain ⟨h2', g2, a2, f2⟩ := RFFT.call_good (e := e.real) hn (rframe hr.rfft f1 zR hz0)
      (fun i hi => a1 i (lt_of_lt_of_le hi (rfftNeed_le hn))) a1.alloc (fun i hi => g1.alloc _ (ay i hi))
      yz.symm hz0 hy0 zR yR
    have hd : ∀ l, l ∉ D → l ∉ rfftDirty e.real (2 * m) z y := fun l hl h => by
      rcases RFFT.dirty_sub _ _ _ _ h with h | h
      · exact hl (dZ h)
      · exact hl (dY h)
    have g2' := g2.mono (R' := R) (D' := D) rfR' (fun l h => by
      rcases RFFT.dirty_sub _ _ _ _ h with h | h
      · exact dZ h
      · exact dY h)
    obtain ⟨h3, g3, a3, f3⟩ := dctScatter_good (R := R) (D := D) (x := x) a2
      (fun i hi => g2.alloc _ (g1.alloc _ (hax.alloc i hi))) xy rY dX (!decide (2 * m < thr.api))
    refine ⟨h3, (g1.append g2').append g3, a3, fun l hl => ?_⟩
    rw [f3 l (fun h => hl (dX h)), f2 l (hd l hl), f1 l (fun h => hl (dZ h))]

theorem DCT.call_good {thr : Thr} {E : Set Nat} {w : World C} {o : DCT} {n : Nat} {e : DctEntry} {x : Ptr} {v : Nat → C}
    (hn : RealLen n) (ow : Owned E o.blocks w) (hr : o.Ready C thr n w.heap) (hax : Arr w.heap x n v) (hx : x.buf ∉ o.blocks) :
    ∃ h', Good (Region x n ∪ {l | l.1 ∈ insert 0 {b | b ∈ o.blocks}}) (Region x n ∪ Region o.y n ∪ Region o.z n)
        (o.call C thr e x) w.heap h' ∧
      Arr h' x n (dctOut C thr e n v) ∧ ∀ l, l ∉ Region x n ∪ Region o.y n ∪ Region o.z n → h' l = w.heap l := by
  obtain ⟨by1, bz, bV, bR, yz, yV, zV, yR, zR, VR⟩ := hr.bufs ow.nodup
  have live0 : ∀ b ∈ o.blocks, b ≠ 0 := fun b hb h0 => ow.wf.null (h0 ▸ (ow.live_iff b).2 (Or.inr hb))
  have xy : x.buf ≠ o.y.buf := fun h => hx (h ▸ by1)
  have xz : x.buf ≠ o.z.buf := fun h => hx (h ▸ bz)
  obtain ⟨b1, e1, ey, ay⟩ := hr.work1
  obtain ⟨b2, e2, ez, az⟩ := hr.work2
  have nd := ow.nodup
  have hsub : ∀ b ∈ o.dct.blocks, b ∈ o.blocks := fun b hb => List.mem_append_left _ hb
  have hy' : o.y.buf ∉ o.dct.blocks := fun h => (List.nodup_append.1 nd).2.2 _ h o.y.buf (by rw [e1, ey]; simp [Ptr.base]) rfl
  have hz' : o.z.buf ∉ o.dct.blocks := fun h => (List.nodup_append.1 nd).2.2 _ h o.z.buf (by rw [e2, ez]; simp [Ptr.base]) rfl
  rw [← ey] at ay
  rw [← ez] at az
  obtain ⟨h', g, a, f⟩ := DCT0.call_good (e := e) hn hr.dct hax ay az (Sep.of_buf xy _ _) (Sep.of_buf xz _ _)
    (Sep.of_buf yz _ _) (live0 _ by1) (live0 _ bz) (fun h => hx (hsub _ h)) hy' hz'
  refine ⟨h', g.mono ?_ subset_rfl, a, f⟩
  rintro l (((h | ⟨i, _, rfl⟩) | ⟨i, _, rfl⟩) | h | h)
  · exact Or.inl h
  · exact Or.inr (Or.inr by1)
  · exact Or.inr (Or.inr bz)
  · exact Or.inr (Or.inl h)
  · exact Or.inr (Or.inr (hsub _ h))

/-- one transform: result, frame, and the object is ready for more -/
theorem DCT.call_spec {thr : Thr} {E : Set Nat} {w : World C} {o : DCT} {n : Nat} {e : DctEntry} {x : Ptr} {v : Nat → C}
    (hn : RealLen n) (ow : Owned E o.blocks w) (hr : o.Ready C thr n w.heap) (hax : Arr w.heap x n v) (hx : x.buf ∉ o.blocks) :
    (Act.exec (o.call C thr e x)).wp (fun _ w' => Owned E o.blocks w' ∧
      Arr w'.heap x n (dctOut C thr e n v) ∧
      (∀ l : Loc, l.1 ∉ o.blocks → l ∉ Region x n → w'.heap l = w.heap l) ∧
      o.Ready C thr n w'.heap ∧ KeepsInit E w.heap w'.heap) w := by
  obtain ⟨h', g, a, f⟩ := DCT.call_good (e := e) hn ow hr hax hx
  obtain ⟨by1, bz, bV, bR, yz, yV, zV, yR, zR, VR⟩ := hr.bufs ow.nodup
  have live0 : ∀ b ∈ o.blocks, b ≠ 0 := fun b hb h0 => ow.wf.null (h0 ▸ (ow.live_iff b).2 (Or.inr hb))
  have hpos : 0 < n := by
    rcases hn with rfl | ⟨m, rfl, hm, hi⟩
    · omega
    · have := hm.two; omega
  have hx0 := ow.wf.buf_ne hpos hax.alloc
  refine Act.wp_exec g ⟨ow.ran g, a, fun l h1 h2 => f l ?_, ⟨?_, ?_, ?_⟩, g.keeps E⟩
  · rintro ((h | ⟨i, _, rfl⟩) | ⟨i, _, rfl⟩)
    · exact h2 h
    · exact h1 by1
    · exact h1 bz
  · -- the object's tables
    have hs : ∀ l : Loc, l.1 ∈ insert 0 {b | b ∈ o.dct.blocks} → h' l = w.heap l := by
      intro l hl
      refine f l ?_
      have nd := ow.nodup
      obtain ⟨b1, e1, e1', -⟩ := hr.work1
      obtain ⟨b2, e2, e2', -⟩ := hr.work2
      rintro ((⟨i, _, rfl⟩ | ⟨i, _, rfl⟩) | ⟨i, _, rfl⟩)
      · rcases hl with h | h
        · exact hx0 h
        · exact hx (List.mem_append_left _ h)
      · rcases hl with h | h
        · exact live0 _ by1 h
        · refine (List.nodup_append.1 nd).2.2 _ h o.y.buf ?_ rfl
          rw [e1, e1']; simp [Ptr.base]
      · rcases hl with h | h
        · exact live0 _ bz h
        · refine (List.nodup_append.1 nd).2.2 _ h o.z.buf ?_ rfl
          rw [e2, e2']; simp [Ptr.base]
    exact hr.dct.frame hs
  · obtain ⟨b, e1, e1', ha⟩ := hr.work1
    exact ⟨b, e1, e1', fun i hi => g.alloc _ (ha i hi)⟩
  · obtain ⟨b, e1, e1', ha⟩ := hr.work2
    exact ⟨b, e1, e1', fun i hi => g.alloc _ (ha i hi)⟩

/-- arguments of a RealDCT call: a filled user array of length `n` -/
structure DCT.Valid (n : Nat) (c : DctEntry × Ptr) (E : Set Nat) (h : Heap C) : Prop where
  len : RealLen n
  arr : Filled h c.2 n
  user : c.2.buf ∈ E

def realDCTSpec (C : Type) [CArith F C] [Inhabited C] (thr : Thr) : ClsSpec (realDCT C thr) where
  blocks := DCT.blocks
  Ready := DCT.Ready C thr
  SetupOK := dctLen
  Valid := DCT.Valid
  valid_keeps := fun v k => ⟨v.len, v.arr.keeps k v.user, v.user⟩
  create_spec := by
    intro E w n hn ow
    refine Act.wp_mono (DCT.create_spec hn ow) ?_
    rintro r w' ⟨s, h⟩
    refine ⟨s.mono Set.subset_union_left, ?_⟩
    cases r with
    | none => exact h
    | some o => exact ⟨by simpa using h.1, h.2⟩
  setup_spec := by
    intro E w o n hn ow
    refine Act.wp_mono (DCT.setup_spec hn (rest := []) ow (by simp)) ?_
    rintro r w' ⟨a, b, c⟩
    exact ⟨by simpa using a, b.mono Set.subset_union_left, c⟩
  call_spec := by
    rintro E w o n ⟨e, x⟩ ow hr hv
    obtain ⟨v, hax⟩ := hv.arr.arr
    refine Act.wp_mono (DCT.call_spec hv.len ow hr hax (fun h => ow.disj _ h hv.user)) ?_
    rintro _ w' ⟨a, b, c, d, k⟩
    exact ⟨a, k, d⟩
  ready_frame := fun r s => r.frame s
  destroy_spec := by
    intro E w o ow
    refine Act.wp_mono (DCT.destroy_spec (rest := []) ow (by simp)) ?_
    rintro _ w' ⟨a, b⟩
    exact ⟨a, b.mono Set.subset_union_left⟩

/-! ### allocation failures -/

theorem DCT0.setup_noFail {thr : Thr} {o : DCT0} {n : Int} (hn : -1 ≤ n) :
    (o.setup C thr n).NoFail fun r => r.2 = false := by
  unfold DCT0.setup
  refine Act.NoFail_seq (RFFT.setup_noFail hn) ?_
  rintro ⟨r, t⟩ ht
  simp only at ht
  subst ht
  exact Act.int_noFail (SArr.setupI_seq (by omega) fun b => Act.int_noFail (Act.NoFail_seq (m := Act.exec _) (P := fun _ => True) trivial fun _ _ => rfl))

theorem DCT.setup_noFail {thr : Thr} {o : DCT} {n : Int} (hn : 0 ≤ n) :
    (o.setup C thr n).NoFail fun r => r.2 = false := by
  unfold DCT.setup
  refine Act.NoFail_seq (DCT0.setup_noFail (by omega)) ?_
  rintro ⟨r, t⟩ ht
  simp only at ht
  subst ht
  exact SArr.setupI_seq hn fun b => SArr.setupI_seq hn fun b => rfl

theorem DCT0.destroy_noFail {o : DCT0} {P : Unit → Prop} (h : P ()) : (o.destroy C).NoFail P := by
  unfold DCT0.destroy
  rw [Act.NoFail_bind, SArr.release_noFail]
  exact RFFT.destroy_noFail h

theorem DCT.destroy_noFail {o : DCT} {P : Unit → Prop} (h : P ()) : (o.destroy C).NoFail P := by
  unfold DCT.destroy
  rw [Act.NoFail_bind, SArr.release_noFail, Act.NoFail_bind, SArr.release_noFail]
  exact DCT0.destroy_noFail h

theorem DCT.create_noFail {thr : Thr} {n : Int} (hn : 0 ≤ n) :
    (DCT.create C thr n).NoFail fun r => r.isSome = true := by
  unfold DCT.create
  refine Act.NoFail_seq (DCT.setup_noFail hn) ?_
  rintro ⟨r, t⟩ ht
  simp only at ht
  subst ht
  rfl

theorem DCT.lifetime_noFail {thr : Thr} (n : Int) (hn : 0 ≤ n) (ops : List (Op C (DctEntry × Ptr)))
    (ho : ∀ op ∈ ops, op.lenNat) :
    ((realDCT C thr).lifetime n ops).NoFail fun r => r = true :=
  Cls.lifetime_noFail (X := realDCT C thr) (fun _ h => DCT.create_noFail h) (fun _ _ h => DCT.setup_noFail h)
    (fun _ => DCT.destroy_noFail trivial) _ hn _ ho

end OTFFT
