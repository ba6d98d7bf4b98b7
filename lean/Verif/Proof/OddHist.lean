/-
The work area of a `DCT` object has no values until the first transform.
-/
import Verif.Proof.OddDCT

namespace OTFFT

set_option linter.unusedSectionVars false

variable {F C : Type} [DArith F] [CArith F C] {thr : Thr}

theorem AllSched.conj {P Q : Heap C → Prop} {c : Config C} (a : AllSched P c) (b : AllSched Q c) :
    AllSched (fun h => P h ∧ Q h) c := by
  induction a with
  | intro noUB post next ih =>
    cases b with
    | intro _ post' next' =>
      exact ⟨noUB, fun f => ⟨post f, post' f⟩, fun d s => ih d s (next' d s)⟩

theorem Act.wp_conj {α : Type} {m : Act C α} : ∀ {P Q : α → World C → Prop} {w : World C}, m.wp P w → m.wp Q w →
    m.wp (fun a w => P a w ∧ Q a w) w := by
  induction m with
  | ret a => intro P Q w h1 h2; exact ⟨h1, h2⟩
  | run c k ih => intro P Q w h1 h2; exact (AllSched.conj h1 h2).mono fun h hh => ih hh.1 hh.2
  | malloc n k ih => intro P Q w h1 h2; exact ⟨ih _ h1.1 h2.1, fun b h0 hb => ih _ (h1.2 b h0 hb) (h2.2 b h0 hb)⟩
  | free b k ih => intro P Q w h1 h2; exact ⟨h1.1, ih h1.2 h2.2⟩

/-- what `malloc` returns has no values -/
theorem sarr_setup_fresh {E : Set Nat} {bs rest : List Nat} {w : World C} {a : SArr} {n : Int} (o : Owned E bs w)
    (hp : bs.Perm (a.toList ++ rest)) :
    (SArr.setup C a n).wp (fun r w' => ∀ b, r = some b → ∀ (i : Nat) (u : C), w'.heap (Ptr.base b + i).loc ≠ some (some u)) w := by
  unfold SArr.setup
  refine Act.wp_seq (release_spec o hp) ?_
  rintro _ w1 ⟨o1, s1⟩
  split
  · intro b hb; cases hb
  · refine ⟨fun b hb => (by cases hb), fun b h0 hb => ?_⟩
    rintro _ ⟨⟩ i u
    show (if b = b then _ else _) ≠ _
    rw [if_pos rfl]
    split <;> simp

/-- no cell of the work area `y` has a value -/
def DCT.Fresh (o : DCT) (h : Heap C) : Prop := ∀ (i : Nat) (u : C), h (o.y + i).loc ≠ some (some u)

theorem DCT.setup_fresh {E : Set Nat} {w : World C} {o : DCT} {n : Int} {bs rest : List Nat}
    (hn : dctLen n) (ow : Owned E bs w) (hp : bs.Perm (o.blocks ++ rest)) :
    (o.setup C thr n).wp (fun r w' => r.2 = false → r.1.Fresh w'.heap) w := by
  unfold DCT.setup
  refine Act.wp_seq (DCT0.setup_spec hn (rest := o.work1.toList ++ (o.work2.toList ++ rest)) ow
    (hp.trans (by simp [DCT.blocks]))) ?_
  rintro ⟨f, t⟩ w1 ⟨o1, s1, r1⟩
  cases t with
  | true => intro h; cases h
  | false =>
    simp only [Bool.false_eq_true, if_false]
    have hp1 : (f.blocks ++ (o.work1.toList ++ (o.work2.toList ++ rest))).Perm
        (o.work1.toList ++ (f.blocks ++ (o.work2.toList ++ rest))) := by
      refine List.perm_iff_count.2 fun a => ?_
      simp only [List.count_append]; omega
    refine Act.wp_seq (Act.wp_conj (sarr_setupI_spec (a := o.work1) (rest := f.blocks ++ (o.work2.toList ++ rest)) o1 hp1)
      (sarr_setup_fresh (a := o.work1) (rest := f.blocks ++ (o.work2.toList ++ rest)) o1 hp1)) ?_
    rintro r w2 ⟨⟨o2, s2, al2⟩, fr2⟩
    cases r with
    | none => intro h; cases h
    | some b1 =>
      refine Act.wp_seq (sarr_setupI_spec (a := o.work2) (rest := f.blocks ++ ([b1] ++ rest)) o2 ?_) ?_
      · refine List.perm_iff_count.2 fun a => ?_
        simp only [List.count_append, Option.toList]; omega
      rintro r w3 ⟨o3, s3, al3⟩
      cases r with
      | none => intro h; cases h
      | some b2 =>
        intro _ i u
        show w3.heap (Ptr.base b1 + i).loc ≠ _
        rw [s3 _ (Or.inr (by simp [Ptr.base, Ptr.loc]))]
        exact fr2 b1 rfl i u

theorem DCT.create_fresh {E : Set Nat} {w : World C} {n : Int} {rest : List Nat}
    (hn : dctLen n) (ow : Owned E rest w) :
    (DCT.create C thr n).wp (fun r w' => match r with
      | none => True
      | some o => o.Fresh w'.heap) w := by
  unfold DCT.create
  refine Act.wp_seq (Act.wp_conj (DCT.setup_spec hn (o := DCT.empty) (rest := rest) ow (List.Perm.refl _))
    (DCT.setup_fresh (thr := thr) hn (o := DCT.empty) (rest := rest) ow (List.Perm.refl _))) ?_
  rintro ⟨f, t⟩ w1 ⟨⟨o1, s1, r1⟩, fr⟩
  cases t with
  | true =>
    refine Act.wp_seq (release_spec (a := f.work2) (rest := f.work1.toList ++ (f.dct.blocks ++ rest)) o1 ?_) ?_
    · refine List.perm_iff_count.2 fun a => ?_
      simp only [DCT.blocks, List.count_append]; omega
    rintro _ w2 ⟨o2, s2⟩
    refine Act.wp_seq (release_spec (a := f.work1) (rest := f.dct.blocks ++ rest) o2 (List.Perm.refl _)) ?_
    rintro _ w3 ⟨o3, s3⟩
    refine Act.wp_seq (DCT0.destroy_spec o3 (List.Perm.refl _)) ?_
    rintro _ w4 ⟨o4, s4⟩
    exact trivial
  | false => exact fr rfl

/-- lengths no transform of a valid history is called for -/
def DCT.Ready2 (C : Type) [CArith F C] (thr : Thr) (o : DCT) (n : Nat) (h : Heap C) : Prop :=
  o.Ready C thr n h ∧ (¬ RealLen n → o.Fresh h)

def realDCTSpec2 (C : Type) [CArith F C] [Inhabited C] (thr : Thr) : ClsSpec (realDCT C thr) where
  blocks := DCT.blocks
  Ready := DCT.Ready2 C thr
  SetupOK := dctLen
  Valid := DCT.Valid
  valid_keeps := (realDCTSpec C thr).valid_keeps
  create_spec := by
    intro E w n hn ow
    refine Act.wp_mono (Act.wp_conj ((realDCTSpec C thr).create_spec n hn ow) (DCT.create_fresh (thr := thr) hn ow)) ?_
    rintro r w' ⟨⟨s, h⟩, f⟩
    refine ⟨s, ?_⟩
    cases r with
    | none => exact h
    | some o => exact ⟨h.1, h.2, fun _ => f⟩
  setup_spec := by
    intro E w o n hn ow
    refine Act.wp_mono (Act.wp_conj ((realDCTSpec C thr).setup_spec o n hn ow)
      (DCT.setup_fresh (thr := thr) hn (rest := []) ow (by simp))) ?_
    rintro r w' ⟨⟨a, b, c⟩, f⟩
    exact ⟨a, b, fun ht => ⟨c ht, fun _ => f ht⟩⟩
  call_spec := by
    rintro E w o n ⟨e, x⟩ ow hr hv
    refine Act.wp_mono ((realDCTSpec C thr).call_spec ow hr.1 hv) ?_
    rintro _ w' ⟨a, b, c⟩
    exact ⟨a, b, c, fun h => absurd hv.len h⟩
  ready_frame := by
    rintro o n h h' ⟨r, f⟩ s
    refine ⟨r.frame s, fun hl i u => ?_⟩
    obtain ⟨b, hw, hy, -⟩ := r.work1
    rw [s _ (Or.inr (by rw [hy]; simp [DCT.blocks, hw, Ptr.base]))]
    exact f hl i u
  destroy_spec := (realDCTSpec C thr).destroy_spec

theorem After.dct_fresh [Inhabited C] {w0 w : World C} {n : Nat} {o : DCT} (hw : w0.WF)
    (ha : After (realDCT C thr) dctLen dctOK w0 n o w) (hn : ¬ RealLen n) : o.Fresh w.heap :=
  (After.spec (realDCTSpec2 C thr) hw (dctOK.valid hw) ha).2.1.2 hn

end OTFFT
