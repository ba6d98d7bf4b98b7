/-
Lengths outside the accepted range: signed overflow in `setup`, and lengths for which `setup` always throws.
-/
import Verif.Proof.Fail
import Verif.Proof.Raw

namespace OTFFT

set_option linter.unusedSectionVars false

variable {C : Type}

/-! ### overflow -/

theorem Act.mayUB_left {α β : Type} {m : Act C α} {f : α → Act C β} {w : World C} (u : m.MayUB w) : (m >>= f).MayUB w := by
  show (m.bind f).MayUB w
  induction u with
  | code h => exact .code h
  | run hr hf _ ih => exact .run hr hf ih
  | mallocFail _ ih => exact .mallocFail ih
  | mallocOk b hb hl _ ih => exact .mallocOk b hb hl ih
  | badFree hb => exact .badFree hb
  | free hb _ ih => exact .free hb ih

theorem Act.int_mayUB {n : Int} (h : 2 ^ 31 ≤ n) (w : World C) : (Act.int n).MayUB w := by
  unfold Act.int
  rw [if_neg (by omega)]
  exact .code ⟨⟨[.ub], [], w.heap⟩, .step (.barrier (by simp)) (.refl _), Or.inl ⟨.ub, by simp, .ub⟩⟩

/-- go on with an execution in which no allocation fails -/
theorem Act.mayUB_next {α β : Type} {m : Act C α} {f : α → Act C β} {w : World C} {Q : α → World C → Prop} {P : α → Prop}
    (h : m.wp Q w) (hP : m.NoFail P) (hfin : w.live.Finite) (u : ∀ a w', P a → Q a w' → (f a).MayUB w') :
    (m >>= f).MayUB w := by
  obtain ⟨a, w', hr, hp, hq⟩ := Act.wp_exists_ok h hP hfin
  exact Act.mayUB_seq hr (u a w' hp hq)

theorem Owned.finite {E : Set Nat} {bs : List Nat} {w : World C} (o : Owned E bs w) (h : E.Finite) : w.live.Finite := by
  rw [o.live]; exact h.union (List.finite_toSet bs)

/-! ### programs all of whose executions end with a certain result -/

/-- every result of the program satisfies `P`, whatever `malloc` does -/
def Act.All {α : Type} (P : α → Prop) : Act C α → Prop
  | .ret a => P a
  | .run _ k => k.All P
  | .malloc _ k => (k none).All P ∧ ∀ b, (k (some b)).All P
  | .free _ k => k.All P

theorem Act.All.runs {α : Type} {P : α → Prop} {m : Act C α} {w w' : World C} {a : α} (h : m.All P) (r : m.Runs w a w') : P a := by
  induction r with
  | ret => exact h
  | run _ _ _ ih => exact ih h
  | mallocFail _ ih => exact ih h.1
  | mallocOk b _ _ _ ih => exact ih (h.2 b)
  | free _ _ ih => exact ih h

theorem Act.All.bind {α β : Type} {P : α → Prop} {Q : β → Prop} {m : Act C α} {f : α → Act C β} (h : m.All P)
    (hf : ∀ a, P a → (f a).All Q) : (m >>= f).All Q := by
  show (m.bind f).All Q
  induction m with
  | ret a => exact hf a h
  | run c k ih => exact ih h
  | malloc n k ih => exact ⟨ih none h.1, fun b => ih (some b) (h.2 b)⟩
  | free b k ih => exact ih h

theorem Act.All.any {α : Type} (m : Act C α) : m.All fun _ => True := by
  induction m with
  | ret a => trivial
  | run c k ih => exact ih
  | malloc n k ih => exact ⟨ih none, fun b => ih (some b)⟩
  | free b k ih => exact ih

theorem Act.All.next {α β : Type} {Q : β → Prop} {m : Act C α} {f : α → Act C β} (hf : ∀ a, (f a).All Q) : (m >>= f).All Q :=
  (Act.All.any m).bind fun a _ => hf a

theorem SArr.setup_neg {a : SArr} {n : Int} (hn : n < 0) : (SArr.setup C a n).All fun r => r = none := by
  unfold SArr.setup
  rw [if_pos hn]
  exact .next fun _ => rfl

variable {F : Type} [DArith F] [CArith F C] {thr : Thr}

theorem logOf_neg {n : Int} (hn : n < 1) : logOf n.toNat = none := by
  have e : n.toNat = 0 := by omega
  rw [e]
  exact logOf_none fun k => by have := Nat.two_pow_pos k; omega

theorem FFT0.setup_neg (o : FFT0) {n : Int} (hn : n < -1) : (o.setup C thr n).All fun r => r.2 = true := by
  unfold FFT0.setup
  rw [logOf_neg (by omega)]
  refine .next fun _ => ⟨rfl, fun b => ?_⟩
  refine Act.All.bind (P := fun r => r.2 = true) ?_ ?_
  · show (mixedSetup C thr (Algo.fresh .mixed b) n).All _
    unfold mixedSetup
    refine .next fun _ => (SArr.setup_neg (by omega)).bind ?_
    rintro _ rfl
    rfl
  · rintro ⟨r, t⟩ (rfl : t = true)
    exact .next fun _ => rfl

theorem FFT.setup_neg (o : FFT) {n : Int} (hn : n < 0) : (o.setup C thr n).All fun r => r.2 = true := by
  unfold FFT.setup
  refine .next fun r => ?_
  simp only
  split
  · rfl
  · refine (SArr.setup_neg hn).bind ?_
    rintro _ rfl
    rfl

theorem FFT.create_neg {n : Int} (hn : n < 0) : (FFT.create C thr n).All fun r => r = none := by
  unfold FFT.create
  refine .next fun r => ?_
  split
  · rfl
  · refine (SArr.setup_neg hn).bind ?_
    rintro _ rfl
    exact .next fun _ => rfl

theorem RFFT.setup_neg (o : RFFT) {n : Int} (hn : n < -1) : (o.setup C thr n).All fun r => r.2 = true := by
  unfold RFFT.setup
  refine .next fun r => ?_
  simp only
  split
  · rfl
  · refine .next fun _ => (SArr.setup_neg (by omega)).bind ?_
    rintro _ rfl
    rfl

theorem DCT0.setup_neg (o : DCT0) {n : Int} (hn : n < -1) : (o.setup C thr n).All fun r => r.2 = true := by
  unfold DCT0.setup
  refine .next fun r => ?_
  simp only
  split
  · rfl
  · refine .next fun _ => (SArr.setup_neg (by omega)).bind ?_
    rintro _ rfl
    rfl

theorem DCT.setup_neg (o : DCT) {n : Int} (hn : n < 0) : (o.setup C thr n).All fun r => r.2 = true := by
  unfold DCT.setup
  refine .next fun r => ?_
  simp only
  split
  · rfl
  · refine (SArr.setup_neg hn).bind ?_
    rintro _ rfl
    rfl

theorem FFT0.create_neg {n : Int} (hn : n < -1) : (FFT0.create C thr n).All fun r => r = none := by
  unfold FFT0.create
  refine (FFT0.setup_neg _ hn).bind ?_
  rintro ⟨r, t⟩ (rfl : t = true)
  exact .next fun _ => rfl

theorem RFFT.create_neg {n : Int} (hn : n < -1) : (RFFT.create C thr n).All fun r => r = none := by
  unfold RFFT.create
  refine (RFFT.setup_neg _ hn).bind ?_
  rintro ⟨r, t⟩ (rfl : t = true)
  exact .next fun _ => rfl

theorem DCT0.create_neg {n : Int} (hn : n < -1) : (DCT0.create C thr n).All fun r => r = none := by
  unfold DCT0.create
  refine (DCT0.setup_neg _ hn).bind ?_
  rintro ⟨r, t⟩ (rfl : t = true)
  exact .next fun _ => .next fun _ => rfl

theorem DCT.create_neg {n : Int} (hn : n < 0) : (DCT.create C thr n).All fun r => r = none := by
  unfold DCT.create
  refine (DCT.setup_neg _ hn).bind ?_
  rintro ⟨r, t⟩ (rfl : t = true)
  exact .next fun _ => .next fun _ => .next fun _ => rfl

/-! ### overflow in `setup` -/

theorem FFT0.setup_overflow {E : Set Nat} {w : World C} {o : FFT0} {n : Int} {bs rest : List Nat} (hE : E.Finite)
    (hn : n = 2 ^ 31 - 1) (ow : Owned E bs w) (hp : bs.Perm (o.blocks ++ rest)) : (o.setup C thr n).MayUB w := by
  have hl : logOf n.toNat = none := by
    refine logOf_none fun k hk => ?_
    rcases Nat.eq_zero_or_pos k with rfl | h
    · simp at hk; omega
    · have e : 2 ^ k = 2 * 2 ^ (k - 1) := by rw [← pow_succ']; congr 1; omega
      omega
  unfold FFT0.setup
  rw [hl]
  refine Act.mayUB_next (P := fun _ => True) (o.reset_spec ow hp) (FFT0.reset_noFail trivial) (ow.finite hE) ?_
  rintro _ w1 - ⟨o1, -⟩
  obtain ⟨b, hb⟩ := ((o1.finite hE).insert 0).exists_notMem
  rw [Set.mem_insert_iff, not_or] at hb
  refine .mallocOk b hb.1 hb.2 (Act.mayUB_left ?_)
  show (mixedSetup C thr (Algo.fresh .mixed b) n).MayUB _
  unfold mixedSetup
  exact Act.mayUB_left (Act.int_mayUB (by omega) _)

theorem FFT.setup_overflow {E : Set Nat} {w : World C} {o : FFT} {n : Int} {bs rest : List Nat} (hE : E.Finite)
    (hn : n = 2 ^ 31 - 1) (ow : Owned E bs w) (hp : bs.Perm (o.blocks ++ rest)) : (o.setup C thr n).MayUB w := by
  unfold FFT.setup
  exact Act.mayUB_left (FFT0.setup_overflow hE hn ow (rest := o.work.toList ++ rest) (hp.trans (by simp [FFT.blocks])))

theorem RFFT.setup_overflow {E : Set Nat} {w : World C} {o : RFFT} {n : Int} {bs rest : List Nat} (hE : E.Finite)
    (hn : n = 2 ^ 31 - 1) (ow : Owned E bs w) (hp : bs.Perm (o.blocks ++ rest)) : (o.setup C thr n).MayUB w := by
  have hb := tdiv_two n
  have hd : n.tdiv 2 = 2 ^ 30 - 1 := by subst hn; decide
  unfold RFFT.setup
  refine Act.mayUB_next (FFT0.setup_spec (thr := thr) (o := o.fft) (by omega) (by omega) (rest := o.weight.toList ++ rest) ow
    (hp.trans (by simp [RFFT.blocks]))) (FFT0.setup_noFail (by omega)) (ow.finite hE) ?_
  rintro ⟨r, t⟩ w1 (rfl : t = false) -
  exact Act.mayUB_left (Act.int_mayUB (by omega) _)

theorem DCT0.setup_overflow {E : Set Nat} {w : World C} {o : DCT0} {n : Int} {bs rest : List Nat} (hE : E.Finite)
    (hn : 2 ^ 30 ≤ n) (hn' : n < 2 ^ 31) (ow : Owned E bs w) (hp : bs.Perm (o.blocks ++ rest)) : (o.setup C thr n).MayUB w := by
  unfold DCT0.setup
  by_cases h : n = 2 ^ 31 - 1
  · exact Act.mayUB_left (RFFT.setup_overflow hE h ow (rest := o.weight.toList ++ rest) (hp.trans (by simp [DCT0.blocks])))
  refine Act.mayUB_next (RFFT.setup_spec (thr := thr) (o := o.rfft) ⟨by omega, by omega⟩ (rest := o.weight.toList ++ rest) ow
    (hp.trans (by simp [DCT0.blocks]))) (RFFT.setup_noFail (by omega)) (ow.finite hE) ?_
  rintro ⟨r, t⟩ w1 (rfl : t = false) ⟨o1, -⟩
  simp only [Bool.false_eq_true, if_false]
  rw [Act.int_ok (by omega) (by omega)]
  refine Act.mayUB_next (m := SArr.setup C o.weight (n + 1)) (sarr_setupI_spec (rest := r.blocks ++ rest) o1 ?_)
    (SArr.setup_noFail (by omega)) (o1.finite hE) ?_
  · refine List.perm_iff_count.2 fun a => ?_
    simp only [List.count_append]; omega
  · rintro _ w2 ⟨b, rfl⟩ -
    exact Act.mayUB_left (Act.int_mayUB (by omega) _)

theorem DCT.setup_overflow {E : Set Nat} {w : World C} {o : DCT} {n : Int} {bs rest : List Nat} (hE : E.Finite)
    (hn : 2 ^ 30 ≤ n) (hn' : n < 2 ^ 31) (ow : Owned E bs w) (hp : bs.Perm (o.blocks ++ rest)) : (o.setup C thr n).MayUB w := by
  unfold DCT.setup
  exact Act.mayUB_left (DCT0.setup_overflow hE hn hn' ow (rest := o.work1.toList ++ (o.work2.toList ++ rest)) (hp.trans (by simp [DCT.blocks])))

theorem Bluestein.setup_overflow {o : Bluestein} {n : Int} (hn : 2 ^ 29 < n) (w : World C) : (o.setup C thr n).MayUB w := by
  have key : o.setup C thr n = .run [[.ub]] (.ret (o, false)) := by
    unfold Bluestein.setup
    rw [if_neg (by omega)]
    unfold Bluestein.setupPos
    split
    · rfl
    · rw [(blueLoop_none_iff (2 * n.toNat) 0 (by omega)).2 (by omega)]
  rw [key]
  exact .code ⟨⟨[.ub], [], w.heap⟩, .step (.barrier (by simp)) (.refl _), Or.inl ⟨.ub, by simp, .ub⟩⟩

end OTFFT
