/-
`Bluestein`: construction, `setup`, transforms, destruction.
-/
import Verif.Proof.BlueMem
import Verif.Proof.Once

noncomputable section

namespace OTFFT

variable {F C : Type} [DArith F] [CArith F C]

/-- a `Bluestein` object set up with length `n`. `setup(0)` does nothing, so then nothing is claimed. -/
structure Bluestein.Ready1 (C : Type) [CArith F C] (thr : Thr) (o : Bluestein) (n : Nat) (h : Heap C) : Prop where
  len : o.N = n
  pad : blueLoop (2 * n) 0 = some o.L
  fft : o.fft.Ready C thr o.L h
  work1 : ∃ b, o.work1 = some b ∧ o.a = Ptr.base b ∧ Alloc h (Ptr.base b) o.L
  work2 : ∃ b, o.work2 = some b ∧ o.b = Ptr.base b ∧ Alloc h (Ptr.base b) o.L
  weight : ∃ b, o.weight = some b ∧ o.W = Ptr.base b ∧ Arr h (Ptr.base b) (2 * n + 1) (blueTab C n)

def Bluestein.Ready (C : Type) [CArith F C] (thr : Thr) (o : Bluestein) (n : Nat) (h : Heap C) : Prop :=
  1 ≤ n → o.Ready1 C thr n h

theorem Bluestein.Ready1.frame {thr : Thr} {o : Bluestein} {n : Nat} {h h' : Heap C} (r : o.Ready1 C thr n h)
    (s : Same (insert 0 {b | b ∈ o.blocks}) h h') : o.Ready1 C thr n h' := by
  refine ⟨r.len, r.pad, r.fft.frame (s.mono ?_), ?_, ?_, ?_⟩
  · rintro b (h | h)
    · exact Or.inl h
    · exact Or.inr (List.mem_append_left _ h)
  · obtain ⟨b, hw, hy, ha⟩ := r.work1
    refine ⟨b, hw, hy, fun i hi => ?_⟩
    rw [s.ptr (p := Ptr.base b) (Or.inr (by simp [Bluestein.blocks, hw, Ptr.base]))]
    exact ha i hi
  · obtain ⟨b, hw, hy, ha⟩ := r.work2
    refine ⟨b, hw, hy, fun i hi => ?_⟩
    rw [s.ptr (p := Ptr.base b) (Or.inr (by simp [Bluestein.blocks, hw, Ptr.base]))]
    exact ha i hi
  · obtain ⟨b, hw, hy, ha⟩ := r.weight
    refine ⟨b, hw, hy, fun i hi => ?_⟩
    rw [s.ptr (p := Ptr.base b) (Or.inr (by simp [Bluestein.blocks, hw, Ptr.base]))]
    exact ha i hi

theorem blueLoop_some {n : Nat} (h : n ≤ 2 ^ 29) : ∃ L, blueLoop (2 * n) 0 = some L := by
  cases hb : blueLoop (2 * n) 0 with
  | some L => exact ⟨L, rfl⟩
  | none =>
    have := (blueLoop_none_iff (2 * n) 0 (by omega)).1 hb
    omega

theorem blueLoop_lt (N2 k L : Nat) (h : blueLoop N2 k = some L) (hk : 2 ^ k < 2 ^ 31) : L < 2 ^ 31 := by
  induction hd : N2 - 2 ^ k using Nat.strong_induction_on generalizing k with
  | _ d ih =>
    rw [blueLoop] at h
    have e2 : 2 ^ (k + 1) = 2 ^ k + 2 ^ k := by rw [Nat.pow_succ]; omega
    have := Nat.two_pow_pos k
    split at h
    · rename_i hlt
      split at h
      · rename_i h31
        exact ih (N2 - 2 ^ (k + 1)) (by omega) (k + 1) h h31 rfl
      · simp at h
    · rw [← Option.some.inj h]; exact hk

/-- the padded length is a power of two and an `int`, so that `setup` of the inner transform accepts it -/
theorem blueLoop_intLen {n L : Nat} (h : blueLoop (2 * n) 0 = some L) : intLen L := by
  have h1 := blueLoop_lt _ _ _ h (by norm_num)
  obtain ⟨j, _, rfl, _, _⟩ := blueLoop_spec _ _ _ h
  have : 2 ^ j ≠ 2147483647 := by
    intro h
    have hj : j < 31 := (Nat.pow_lt_pow_iff_right (by omega)).1 h1
    have : 2 ^ j ≤ 2 ^ 30 := Nat.pow_le_pow_right (by omega) (by omega)
    omega
  exact ⟨by omega, by omega⟩

theorem Bluestein.setupPos_spec {thr : Thr} {E : Set Nat} {w : World C} {o : Bluestein} {n : Nat} {bs rest : List Nat}
    (h1 : ¬ n < 1) (hn : n ≤ 2 ^ 29) (ow : Owned E bs w) (hp : bs.Perm (o.blocks ++ rest)) :
    (o.setupPos C thr n).wp (fun r w' => Owned E (r.1.blocks ++ rest) w' ∧
      Same (E ∪ {b | b ∈ rest}) w.heap w'.heap ∧
      (r.2 = false → r.1.Ready C thr n w'.heap)) w := by
  unfold Bluestein.setupPos
  rw [if_neg (by omega)]
  obtain ⟨L, hL⟩ := blueLoop_some hn
  rw [hL]
  refine Act.wp_seq (FFT.setup_spec (blueLoop_intLen hL) (rest := o.work1.toList ++ (o.work2.toList ++ (o.weight.toList ++ rest))) ow
    (hp.trans (by simp [Bluestein.blocks]))) ?_
  rintro ⟨f, t⟩ w1 ⟨o1, s1, r1⟩
  have s1' : Same (E ∪ {b | b ∈ rest}) w.heap w1.heap := s1.mono (mem_union_list (by simp; tauto))
  cases t with
  | true => exact ⟨o1.perm (by simp [Bluestein.blocks]), s1', by simp⟩
  | false =>
    simp only [Bool.false_eq_true, if_false]
    refine Act.wp_seq (sarr_setup_spec (a := o.work1) (rest := f.blocks ++ (o.work2.toList ++ (o.weight.toList ++ rest))) o1 ?_) ?_
    · refine List.perm_iff_count.2 fun a => ?_
      simp only [List.count_append]; omega
    rintro r w2 ⟨o2, s2, al2⟩
    have s2' : Same (E ∪ {b | b ∈ rest}) w1.heap w2.heap := s2.mono (mem_union_list (by simp; tauto))
    cases r with
    | none =>
      exact ⟨o2.perm (by
        refine List.perm_iff_count.2 fun a => ?_
        simp only [Bluestein.blocks, List.count_append, Option.toList]; omega), s1'.trans s2', by simp⟩
    | some b1 =>
      refine Act.wp_seq (sarr_setup_spec (a := o.work2) (rest := f.blocks ++ ([b1] ++ (o.weight.toList ++ rest))) o2 ?_) ?_
      · refine List.perm_iff_count.2 fun a => ?_
        simp only [List.count_append, Option.toList]; omega
      rintro r w3 ⟨o3, s3, al3⟩
      have s3' : Same (E ∪ {b | b ∈ rest}) w2.heap w3.heap := s3.mono (mem_union_list (by simp; tauto))
      cases r with
      | none =>
        exact ⟨o3.perm (by
          refine List.perm_iff_count.2 fun a => ?_
          simp only [Bluestein.blocks, List.count_append, Option.toList]; omega), (s1'.trans s2').trans s3', by simp⟩
      | some b2 =>
        refine Act.wp_seq (sarr_setup_spec (a := o.weight) (rest := f.blocks ++ ([b1] ++ ([b2] ++ rest))) o3 ?_) ?_
        · refine List.perm_iff_count.2 fun a => ?_
          simp only [List.count_append, Option.toList]; omega
        rintro r w4 ⟨o4, s4, al4⟩
        have s4' : Same (E ∪ {b | b ∈ rest}) w3.heap w4.heap := s4.mono (mem_union_list (by simp; tauto))
        cases r with
        | none =>
          exact ⟨o4.perm (by
            refine List.perm_iff_count.2 fun a => ?_
            simp only [Bluestein.blocks, List.count_append, Option.toList]; omega), ((s1'.trans s2').trans s3').trans s4', by simp⟩
        | some b3 =>
          refine Act.wp_seq (table_step (P := fun h => Arr h (Ptr.base b3) (2 * n + 1) (blueTab C n)) o4
            (blueTable_good (by omega) (al4 b3 rfl) (le_refl _))) ?_
          rintro _ w5 ⟨o5, s5, t⟩
          have s5' : Same (E ∪ {b | b ∈ rest}) w4.heap w5.heap := s5.mono (mem_union_list (by simp; tauto))
          refine ⟨o5.perm (by
            show (b3 :: (f.blocks ++ ([b1] ++ ([b2] ++ rest)))).Perm _
            refine List.perm_iff_count.2 fun a => ?_
            simp only [Bluestein.blocks, List.count_append, List.count_cons, List.count_nil, Option.toList]; omega),
            (((s1'.trans s2').trans s3').trans s4').trans s5', fun _ _ => ⟨rfl, hL, ?_, ⟨b1, rfl, rfl, ?_⟩, ⟨b2, rfl, rfl, ?_⟩, b3, rfl, rfl, t⟩⟩
          · refine (r1 rfl).frame (((((s2.null o1.wf o2.wf).mono ?_).trans ((s3.null o2.wf o3.wf).mono ?_)).trans
              ((s4.null o3.wf o4.wf).mono ?_)).trans ((s5.null o4.wf o5.wf).mono ?_)) <;>
            · rintro c (h | h)
              · exact Or.inl h
              · refine Or.inr (Or.inr ?_)
                have h : c ∈ f.blocks := h
                simp [h]
          · intro i hi
            rw [s5 _ (Or.inr (by simp [Ptr.base, Ptr.loc])), s4 _ (Or.inr (by simp [Ptr.base, Ptr.loc])), s3 _ (Or.inr (by simp [Ptr.base, Ptr.loc]))]
            exact al2 b1 rfl i hi
          · intro i hi
            rw [s5 _ (Or.inr (by simp [Ptr.base, Ptr.loc])), s4 _ (Or.inr (by simp [Ptr.base, Ptr.loc]))]
            exact al3 b2 rfl i hi

theorem Bluestein.setup_spec {thr : Thr} {E : Set Nat} {w : World C} {o : Bluestein} {n : Int} {bs rest : List Nat}
    (hn : blueLen n) (ow : Owned E bs w) (hp : bs.Perm (o.blocks ++ rest)) :
    (o.setup C thr n).wp (fun r w' => Owned E (r.1.blocks ++ rest) w' ∧
      Same (E ∪ {b | b ∈ rest}) w.heap w'.heap ∧
      (r.2 = false → r.1.Ready C thr n.toNat w'.heap)) w := by
  unfold Bluestein.setup
  by_cases h1 : n < 1
  · rw [if_pos h1]
    exact ⟨ow.perm hp, .refl _ _, fun _ h => by omega⟩
  · rw [if_neg h1]
    exact Bluestein.setupPos_spec (by omega) (by unfold blueLen at hn; omega) ow hp

theorem Bluestein.destroy_spec {E : Set Nat} {w : World C} {o : Bluestein} {bs rest : List Nat} (ow : Owned E bs w)
    (hp : bs.Perm (o.blocks ++ rest)) :
    (o.destroy C).wp (fun _ w' => Owned E rest w' ∧ Same (E ∪ {b | b ∈ rest}) w.heap w'.heap) w := by
  unfold Bluestein.destroy
  refine Act.wp_seq (release_spec (a := o.work1) (rest := o.work2.toList ++ (o.weight.toList ++ (o.fft.blocks ++ rest))) ow (hp.trans ?_)) ?_
  · refine List.perm_iff_count.2 fun a => ?_
    simp only [Bluestein.blocks, List.count_append]; omega
  rintro _ w1 ⟨o1, s1⟩
  refine Act.wp_seq (release_spec (a := o.work2) (rest := o.weight.toList ++ (o.fft.blocks ++ rest)) o1 (List.Perm.refl _)) ?_
  rintro _ w2 ⟨o2, s2⟩
  refine Act.wp_seq (release_spec (a := o.weight) (rest := o.fft.blocks ++ rest) o2 (List.Perm.refl _)) ?_
  rintro _ w3 ⟨o3, s3⟩
  refine Act.wp_mono (FFT.destroy_spec o3 (List.Perm.refl _)) ?_
  rintro _ w4 ⟨o4, s4⟩
  exact ⟨o4, (((s1.mono (mem_union_list (by simp; tauto))).trans (s2.mono (mem_union_list (by simp; tauto)))).trans
    (s3.mono (mem_union_list (by simp; tauto)))).trans s4⟩

theorem Bluestein.create_spec {thr : Thr} {E : Set Nat} {w : World C} {n : Int} {rest : List Nat} (hn : blueLen n)
    (ow : Owned E rest w) :
    (Bluestein.create C thr n).wp (fun r w' => Same (E ∪ {b | b ∈ rest}) w.heap w'.heap ∧ match r with
      | none => Owned E rest w'
      | some o => Owned E (o.blocks ++ rest) w' ∧ o.Ready C thr n.toNat w'.heap) w := by
  unfold Bluestein.create
  refine Act.wp_seq (Bluestein.setup_spec (o := Bluestein.empty) (rest := rest) hn ow (List.Perm.refl _)) ?_
  rintro ⟨f, t⟩ w1 ⟨o1, s1, r1⟩
  cases t with
  | true =>
    refine Act.wp_seq (release_spec (a := f.weight) (rest := f.work2.toList ++ (f.work1.toList ++ (f.fft.blocks ++ rest))) o1 ?_) ?_
    · refine List.perm_iff_count.2 fun a => ?_
      simp only [Bluestein.blocks, List.count_append]; omega
    rintro _ w2 ⟨o2, s2⟩
    refine Act.wp_seq (release_spec (a := f.work2) (rest := f.work1.toList ++ (f.fft.blocks ++ rest)) o2 (List.Perm.refl _)) ?_
    rintro _ w3 ⟨o3, s3⟩
    refine Act.wp_seq (release_spec (a := f.work1) (rest := f.fft.blocks ++ rest) o3 (List.Perm.refl _)) ?_
    rintro _ w4 ⟨o4, s4⟩
    refine Act.wp_seq (FFT.destroy_spec o4 (List.Perm.refl _)) ?_
    rintro _ w5 ⟨o5, s5⟩
    exact ⟨(((s1.trans (s2.mono (mem_union_list (by simp; tauto)))).trans (s3.mono (mem_union_list (by simp; tauto)))).trans
      (s4.mono (mem_union_list (by simp; tauto)))).trans s5, o5⟩
  | false => exact ⟨s1, o1, r1 rfl⟩

/-! ### transforms -/

/-- what a transform computes with the padded length `L`, any arithmetic -/
def blueRes (C : Type) [CArith F C] (thr : Thr) (inv : Bool) (mode : ScaleMode) (n L : Nat) (v : Nat → C) (p : Nat) : C :=
  if n < 2 then v p
  else bsc mode n (mulpz
    (fftOut C thr true .scale_length L (fun k => mulpz (fftOut C thr false .scale_1 L (blueA C n inv (blueTab C n) v) k)
      (fftOut C thr false .scale_1 L (blueB C n L inv (blueTab C n)) k)) p)
    (cnjpz (blueX C n inv (blueTab C n) p)))

/-- the padded length for `n` -/
def bluePad (n : Nat) : Nat := (blueLoop (2 * n) 0).getD 0

/-- what a transform computes, any arithmetic -/
def blueOutF (C : Type) [CArith F C] (thr : Thr) (e : Entry) (n : Nat) (v : Nat → C) : Nat → C :=
  blueRes C thr e.isInv e.mode n (bluePad n) v

theorem Bluestein.call_eq (thr : Thr) (o : Bluestein) (e : Entry) (x : Ptr) :
    o.call C thr e x = o.run C thr e.isInv e.mode x := by cases e <;> rfl

theorem blueLoop_valid {n L : Nat} (hn : 2 ≤ n) (h : blueLoop (2 * n) 0 = some L) : ValidLen L ∧ 2 * n - 1 ≤ L := by
  have hlt := blueLoop_lt _ _ _ h (by norm_num)
  obtain ⟨j, _, rfl, h3, _⟩ := blueLoop_spec _ _ _ h
  refine ⟨⟨by omega, fun q hq hd => ?_, hlt⟩, h3⟩
  have := (Nat.prime_dvd_prime_iff_eq hq Nat.prime_two).1 (hq.dvd_of_dvd_pow hd)
  omega

theorem Bluestein.Ready1.bufs {thr : Thr} {o : Bluestein} {n : Nat} {h : Heap C} (hr : o.Ready1 C thr n h) (nd : o.blocks.Nodup) :
    o.a.buf ∈ o.blocks ∧ o.b.buf ∈ o.blocks ∧ o.W.buf ∈ o.blocks ∧ (∀ b ∈ o.fft.blocks, b ∈ o.blocks) ∧
    o.a.buf ≠ o.b.buf ∧ o.a.buf ≠ o.W.buf ∧ o.b.buf ≠ o.W.buf ∧
    o.a.buf ∉ o.fft.blocks ∧ o.b.buf ∉ o.fft.blocks ∧ o.W.buf ∉ o.fft.blocks := by
  obtain ⟨b1, e1, e1', -⟩ := hr.work1
  obtain ⟨b2, e2, e2', -⟩ := hr.work2
  obtain ⟨b3, e3, e3', -⟩ := hr.weight
  rw [e1', e2', e3']
  unfold Bluestein.blocks at nd ⊢
  rw [e1, e2, e3] at nd ⊢
  simp only [Ptr.base, Option.toList, List.nodup_append, List.mem_append, List.mem_singleton, List.nodup_cons, List.not_mem_nil] at nd ⊢
  obtain ⟨_, ⟨_, ⟨_, _, h23⟩, h1⟩, h0⟩ := nd
  exact ⟨by simp, by simp, by simp, fun b hb => Or.inl hb, h1 b1 rfl b2 (Or.inl rfl), h1 b1 rfl b3 (Or.inr rfl), h23 b2 rfl b3 rfl,
    fun h => h0 b1 h b1 (Or.inl rfl) rfl, fun h => h0 b2 h b2 (Or.inr (Or.inl rfl)) rfl, fun h => h0 b3 h b3 (Or.inr (Or.inr rfl)) rfl⟩

theorem Bluestein.call_good {thr : Thr} {E : Set Nat} {w : World C} {o : Bluestein} {n : Nat} {e : Entry} {x : Ptr} {v : Nat → C}
    (hn : 1 ≤ n) (hn29 : n ≤ 2 ^ 29) (ow : Owned E o.blocks w) (hr : o.Ready1 C thr n w.heap) (hax : Arr w.heap x n v) (hx : x.buf ∉ o.blocks) :
    ∃ h', Good (Region x n ∪ {l | l.1 ∈ insert 0 {b | b ∈ o.blocks}})
        (Region x n ∪ (Region o.a o.L ∪ Region o.b o.L ∪ Region o.fft.y o.L)) (o.call C thr e x) w.heap h' ∧
      Arr h' x n (blueOutF C thr e n v) ∧
      ∀ l, l ∉ Region x n ∪ (Region o.a o.L ∪ Region o.b o.L ∪ Region o.fft.y o.L) → h' l = w.heap l := by
  obtain ⟨ba, bb, bW, bF, ab, aW, bW', aF, bF', WF⟩ := hr.bufs ow.nodup
  rw [Bluestein.call_eq]
  unfold blueOutF bluePad Bluestein.run
  rw [hr.pad, hr.len]
  simp only [Option.getD]
  rcases Nat.lt_or_ge n 2 with h1 | h2
  · refine ⟨w.heap, ?_, ?_, fun _ _ => rfl⟩
    · rw [if_pos h1]; exact .nil
    · unfold blueRes; simp only [h1, if_true]; exact hax
  rw [if_neg (by omega)]
  obtain ⟨hLv, hL⟩ := blueLoop_valid h2 hr.pad
  have xa : x.buf ≠ o.a.buf := fun h => hx (h ▸ ba)
  have xb : x.buf ≠ o.b.buf := fun h => hx (h ▸ bb)
  have xW : x.buf ≠ o.W.buf := fun h => hx (h ▸ bW)
  obtain ⟨b1, -, ea, aa⟩ := hr.work1
  obtain ⟨b2, -, eb, ab'⟩ := hr.work2
  obtain ⟨b3, -, eW, aW'⟩ := hr.weight
  rw [← ea] at aa
  rw [← eb] at ab'
  rw [← eW] at aW'
  set R : Set Loc := Region x n ∪ {l | l.1 ∈ insert 0 {b | b ∈ o.blocks}} with hR
  set D : Set Loc := Region x n ∪ (Region o.a o.L ∪ Region o.b o.L ∪ Region o.fft.y o.L) with hD
  have rR : ∀ {p : Ptr} {k : Nat}, p.buf ∈ o.blocks → Region p k ⊆ R := by
    rintro p k hp l ⟨i, _, rfl⟩
    exact Or.inr (Or.inr hp)
  have rX : Region x n ⊆ R := Set.subset_union_left
  have dX : Region x n ⊆ D := Set.subset_union_left
  have dA : Region o.a o.L ⊆ D := fun l h => Or.inr (Or.inl (Or.inl h))
  have dB : Region o.b o.L ⊆ D := fun l h => Or.inr (Or.inl (Or.inr h))
  have dY : Region o.fft.y o.L ⊆ D := fun l h => Or.inr (Or.inr h)
  obtain ⟨by', ewy, ey, -⟩ := hr.fft.work
  have yF : o.fft.y.buf ∈ o.fft.blocks := by rw [ey]; simp [FFT.blocks, ewy, Ptr.base]
  have fR : ∀ {p : Ptr}, p.buf ∈ o.blocks → Region p o.L ∪ {l | l.1 ∈ insert 0 {b | b ∈ o.fft.blocks}} ⊆ R := by
    rintro p hp l (h | h | h)
    · exact rR hp h
    · exact Or.inr (Or.inl h)
    · exact Or.inr (Or.inr (bF _ h))
  have live0 : ∀ b ∈ o.blocks, b ≠ 0 := fun b hb h0 => ow.wf.null (h0 ▸ (ow.live_iff b).2 (Or.inr hb))
  -- preparation
  obtain ⟨h1, g1, x1, a1, c1, f1⟩ := bluePrep_good (R := R) (D := D) (inv := e.isInv) (par := !decide (n < thr.api)) h2 (by omega) hL hax aW' aa ab' xa xb xW ab aW bW'
    rX (rR bb) (rR bW) dX dA dB
  have fr1 : o.fft.Ready C thr o.L h1 := by
    refine hr.fft.frame fun l hl => f1 l ?_ ?_ ?_
    · rintro ⟨i, hi, rfl⟩
      rcases hl with h | h
      · exact ow.wf.buf_ne (by omega) hax.alloc h
      · exact hx (bF _ h)
    · rintro ⟨i, hi, rfl⟩
      rcases hl with h | h
      · exact live0 _ ba h
      · exact aF h
    · rintro ⟨i, hi, rfl⟩
      rcases hl with h | h
      · exact live0 _ bb h
      · exact bF' h
  have ow1 := ow.ran g1
  -- a
  obtain ⟨h2', g2, a2, f2⟩ := FFT.call_good (E := E) (e := .fwd0) (rest := o.work1.toList ++ (o.work2.toList ++ o.weight.toList)) hLv ow1
    (List.Perm.refl _) fr1 a1 aF
  have ow2 := ow1.ran g2
  have nY : ∀ {p : Ptr} {i : Nat}, p.buf ∉ o.fft.blocks → (p + i).loc ∉ Region o.fft.y o.L := by
    rintro p i hp ⟨j, _, e⟩
    exact hp (by have := congrArg Prod.fst e; simp only [Ptr.loc_add] at this; rw [this]; exact yF)
  have c2 : Arr h2' o.b o.L (blueB C n o.L e.isInv (blueTab C n)) := fun i hi => by
    rw [f2 _ (not_region_buf ab.symm) (nY bF')]; exact c1 i hi
  have x2 : Arr h2' x n (blueX C n e.isInv (blueTab C n)) := fun i hi => by
    rw [f2 _ (not_region_buf xa) (nY fun h => hx (bF _ h))]; exact x1 i hi
  have frstep : ∀ {h h' : Heap C} {p : Ptr}, o.fft.Ready C thr o.L h → KeepsInit Set.univ h h' →
      (∀ l, l ∉ Region p o.L → l ∉ Region o.fft.y o.L → h' l = h l) → p.buf ∉ o.fft.blocks → p.buf ≠ 0 →
      (∀ l, h l ≠ none → h' l ≠ none) → o.fft.Ready C thr o.L h' := by
    intro h h' p hr' _ hf hp hp0 hal
    obtain ⟨by2, ew2, ey2, al2⟩ := hr'.work
    refine ⟨hr'.fft.frame fun l hl => hf l ?_ ?_, by2, ew2, ey2, fun i hi => hal _ (al2 i hi)⟩
    · rintro ⟨i, _, rfl⟩
      rcases hl with h | h
      · exact hp0 h
      · exact hp (List.mem_append_left _ h)
    · rintro ⟨i, _, rfl⟩
      rcases hl with h | h
      · exact live0 _ (bF _ yF) h
      · have nd := (List.nodup_append.1 ow.nodup).1
        rw [FFT.blocks, ew2] at nd
        exact (List.nodup_append.1 nd).2.2 _ h by2 (by simp) (by rw [ey2]; rfl)
  have fr2 : o.fft.Ready C thr o.L h2' := frstep fr1 (g2.keeps _) f2 aF (live0 _ ba) fun l hl => g2.alloc l hl
  -- b
  obtain ⟨h3, g3, c3, f3⟩ := FFT.call_good (E := E) (e := .fwd0) (rest := o.work1.toList ++ (o.work2.toList ++ o.weight.toList)) hLv ow2
    (List.Perm.refl _) fr2 c2 bF'
  have ow3 := ow2.ran g3
  have fr3 : o.fft.Ready C thr o.L h3 := frstep fr2 (g3.keeps _) f3 bF' (live0 _ bb) fun l hl => g3.alloc l hl
  have a3 : Arr h3 o.a o.L (fftOut C thr false .scale_1 o.L (blueA C n e.isInv (blueTab C n) v)) := fun i hi => by
    rw [f3 _ (not_region_buf ab) (nY aF)]; exact a2 i hi
  have x3 : Arr h3 x n (blueX C n e.isInv (blueTab C n)) := fun i hi => by
    rw [f3 _ (not_region_buf xb) (nY fun h => hx (bF _ h))]; exact x2 i hi
  -- product
  obtain ⟨h4, g4, a4, f4⟩ := blueMul_good (R := R) (D := D) (par := !decide (n < thr.api)) a3 c3 ab (rR ba) (rR bb) dA
  have ow4 := ow3.ran g4
  have fr4 : o.fft.Ready C thr o.L h4 := frstep fr3 (g4.keeps _) (fun l h _ => f4 l h) aF (live0 _ ba) fun l hl => g4.alloc l hl
  have x4 : Arr h4 x n (blueX C n e.isInv (blueTab C n)) := fun i hi => by
    rw [f4 _ (not_region_buf xa)]; exact x3 i hi
  -- inverse
  obtain ⟨h5, g5, a5, f5⟩ := FFT.call_good (E := E) (e := .invn) (rest := o.work1.toList ++ (o.work2.toList ++ o.weight.toList)) hLv ow4
    (List.Perm.refl _) fr4 a4 aF
  have x5 : Arr h5 x n (blueX C n e.isInv (blueTab C n)) := fun i hi => by
    rw [f5 _ (not_region_buf xa) (nY fun h => hx (bF _ h))]; exact x4 i hi
  -- output
  obtain ⟨h6, g6, x6, f6⟩ := blueOut_good (R := R) (D := D) (par := !decide (n < thr.api)) (mode := e.mode) (by omega : n ≤ o.L) x5 a5 xa rX (rR ba) dX
  refine ⟨h6, ((((g1.append (g2.mono (fR ba) (Set.union_subset dA dY))).append (g3.mono (fR bb) (Set.union_subset dB dY))).append g4).append
    (g5.mono (fR ba) (Set.union_subset dA dY))).append g6, ?_, fun l hl => ?_⟩
  · intro i hi
    rw [x6 i hi]
    unfold blueRes
    rw [if_neg (by omega : ¬ n < 2)]
    rfl
  · exact (f6 l (fun h => hl (dX h))).trans ((f5 l (fun h => hl (dA h)) (fun h => hl (dY h))).trans ((f4 l (fun h => hl (dA h))).trans
      ((f3 l (fun h => hl (dB h)) (fun h => hl (dY h))).trans ((f2 l (fun h => hl (dA h)) (fun h => hl (dY h))).trans
      (f1 l (fun h => hl (dX h)) (fun h => hl (dA h)) (fun h => hl (dB h)))))))

/-- one transform: result, frame, and the object is ready for more -/
theorem Bluestein.call_spec {thr : Thr} {E : Set Nat} {w : World C} {o : Bluestein} {n : Nat} {e : Entry} {x : Ptr} {v : Nat → C}
    (hn : 1 ≤ n) (hn29 : n ≤ 2 ^ 29) (ow : Owned E o.blocks w) (hr : o.Ready1 C thr n w.heap) (hax : Arr w.heap x n v) (hx : x.buf ∉ o.blocks) :
    (Act.exec (o.call C thr e x)).wp (fun _ w' => Owned E o.blocks w' ∧
      Arr w'.heap x n (blueOutF C thr e n v) ∧
      (∀ l : Loc, l.1 ∉ o.blocks → l ∉ Region x n → w'.heap l = w.heap l) ∧
      o.Ready1 C thr n w'.heap ∧ KeepsInit E w.heap w'.heap) w := by
  obtain ⟨h', g, a, f⟩ := Bluestein.call_good (e := e) hn hn29 ow hr hax hx
  obtain ⟨ba, bb, bW, bF, ab, aW, bW', aF, bF', WF⟩ := hr.bufs ow.nodup
  have live0 : ∀ b ∈ o.blocks, b ≠ 0 := fun b hb h0 => ow.wf.null (h0 ▸ (ow.live_iff b).2 (Or.inr hb))
  have hx0 := ow.wf.buf_ne (by omega : 0 < n) hax.alloc
  obtain ⟨by', ewy, ey, aly⟩ := hr.fft.work
  have yF : o.fft.y.buf ∈ o.fft.blocks := by rw [ey]; simp [FFT.blocks, ewy, Ptr.base]
  refine Act.wp_exec g ⟨ow.ran g, a, fun l h1 h2 => f l ?_, ⟨hr.len, hr.pad, ⟨?_, ?_⟩, ?_, ?_, ?_⟩, g.keeps E⟩
  · rintro (h | (⟨i, _, rfl⟩ | ⟨i, _, rfl⟩) | ⟨i, _, rfl⟩)
    · exact h2 h
    · exact h1 ba
    · exact h1 bb
    · exact h1 (bF _ yF)
  · refine hr.fft.fft.frame fun l hl => f l ?_
    rintro (⟨i, _, rfl⟩ | (⟨i, _, rfl⟩ | ⟨i, _, rfl⟩) | ⟨i, _, rfl⟩)
    · rcases hl with h | h
      · exact hx0 h
      · exact hx (bF _ (List.mem_append_left _ h))
    · rcases hl with h | h
      · exact live0 _ ba h
      · exact aF (List.mem_append_left _ h)
    · rcases hl with h | h
      · exact live0 _ bb h
      · exact bF' (List.mem_append_left _ h)
    · rcases hl with h | h
      · exact live0 _ (bF _ yF) h
      · have nd := (List.nodup_append.1 ow.nodup).1
        rw [FFT.blocks, ewy] at nd
        exact (List.nodup_append.1 nd).2.2 _ h by' (by simp) (by rw [ey]; rfl)
  · exact ⟨by', ewy, ey, fun i hi => g.alloc _ (aly i hi)⟩
  · obtain ⟨b, e1, e1', ha⟩ := hr.work1
    exact ⟨b, e1, e1', fun i hi => g.alloc _ (ha i hi)⟩
  · obtain ⟨b, e1, e1', ha⟩ := hr.work2
    exact ⟨b, e1, e1', fun i hi => g.alloc _ (ha i hi)⟩
  · obtain ⟨b, e1, e1', ha⟩ := hr.weight
    refine ⟨b, e1, e1', fun i hi => (f _ ?_).trans (ha i hi)⟩
    rw [← e1']
    rintro (h | (h | h) | h)
    · exact not_region_buf (fun e => hx (e ▸ bW)) h
    · exact not_region_buf aW.symm h
    · exact not_region_buf bW'.symm h
    · exact not_region_buf (fun (e : o.W.buf = o.fft.y.buf) => WF (by rw [e]; exact yF)) h

/-- arguments of a call: a filled user array of length `n` -/
structure Bluestein.Valid (n : Nat) (c : Entry × Ptr) (E : Set Nat) (h : Heap C) : Prop where
  pos : 1 ≤ n
  le : n ≤ 2 ^ 29
  arr : Filled h c.2 n
  user : c.2.buf ∈ E

def bluesteinSpec (C : Type) [CArith F C] [Inhabited C] (thr : Thr) : ClsSpec (bluesteinFFT C thr) where
  blocks := Bluestein.blocks
  Ready := Bluestein.Ready C thr
  SetupOK := blueLen
  Valid := Bluestein.Valid
  valid_keeps := fun v k => ⟨v.pos, v.le, v.arr.keeps k v.user, v.user⟩
  create_spec := by
    intro E w n hn ow
    refine Act.wp_mono (Bluestein.create_spec hn ow) ?_
    rintro r w' ⟨s, h⟩
    refine ⟨s.mono Set.subset_union_left, ?_⟩
    cases r with
    | none => exact h
    | some o => exact ⟨by simpa using h.1, h.2⟩
  setup_spec := by
    intro E w o n hn ow
    refine Act.wp_mono (Bluestein.setup_spec (rest := []) hn ow (by simp)) ?_
    rintro r w' ⟨a, b, c⟩
    exact ⟨by simpa using a, b.mono Set.subset_union_left, c⟩
  call_spec := by
    rintro E w o n ⟨e, x⟩ ow hr hv
    obtain ⟨v, hax⟩ := hv.arr.arr
    refine Act.wp_mono (Bluestein.call_spec hv.pos hv.le ow (hr hv.pos) hax (fun h => ow.disj _ h hv.user)) ?_
    rintro _ w' ⟨a, b, c, d, k⟩
    exact ⟨a, k, fun _ => d⟩
  ready_frame := fun r s h => (r h).frame s
  destroy_spec := by
    intro E w o ow
    refine Act.wp_mono (Bluestein.destroy_spec (rest := []) ow (by simp)) ?_
    rintro _ w' ⟨a, b⟩
    exact ⟨a, b.mono Set.subset_union_left⟩

/-! ### allocation failures -/

theorem Bluestein.setup_noFail {thr : Thr} {o : Bluestein} {n : Int} :
    (o.setup C thr n).NoFail fun r => r.2 = false := by
  unfold Bluestein.setup
  split
  · rfl
  unfold Bluestein.setupPos
  split
  · rfl
  split
  · rfl
  refine Act.NoFail_seq (FFT.setup_noFail (by omega)) ?_
  rintro ⟨r, t⟩ ht
  simp only at ht
  subst ht
  refine SArr.setup_seq fun b => SArr.setup_seq fun b => SArr.setup_seq fun b => ?_
  rfl

theorem Bluestein.destroy_noFail {o : Bluestein} {P : Unit → Prop} (h : P ()) : (o.destroy C).NoFail P := by
  unfold Bluestein.destroy
  rw [Act.NoFail_bind, SArr.release_noFail, Act.NoFail_bind, SArr.release_noFail, Act.NoFail_bind, SArr.release_noFail]
  exact FFT.destroy_noFail h

theorem Bluestein.create_noFail {thr : Thr} {n : Int} :
    (Bluestein.create C thr n).NoFail fun r => r.isSome = true := by
  unfold Bluestein.create
  refine Act.NoFail_seq Bluestein.setup_noFail ?_
  rintro ⟨r, t⟩ ht
  simp only at ht
  subst ht
  rfl

theorem Bluestein.lifetime_noFail {thr : Thr} (n : Int) (hn : 0 ≤ n) (ops : List (Op C (Entry × Ptr)))
    (ho : ∀ op ∈ ops, op.lenNat) :
    ((bluesteinFFT C thr).lifetime n ops).NoFail fun r => r = true :=
  Cls.lifetime_noFail (X := bluesteinFFT C thr) (fun _ _ => Bluestein.create_noFail) (fun _ _ _ => Bluestein.setup_noFail)
    (fun _ => Bluestein.destroy_noFail trivial) _ hn _ ho

end OTFFT
