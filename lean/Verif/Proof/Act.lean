/-
Reasoning about `Act` programs: adequacy of `wp`, composition, ownership of blocks.
-/
import Verif.Model.Act
import Verif.Proof.Stage
import Mathlib.Data.Set.Finite.Basic
import Mathlib.Data.Fintype.EquivFin

namespace OTFFT

variable {C : Type}

theorem Act.bind_eq {α β : Type} (m : Act C α) (f : α → Act C β) : (m >>= f) = m.bind f := rfl
theorem Act.pure_eq {α : Type} (a : α) : (pure a : Act C α) = .ret a := rfl

theorem Act.wp_bind {α β : Type} (m : Act C α) (f : α → Act C β) (Q : β → World C → Prop) :
    ∀ w, (m >>= f).wp Q w = m.wp (fun a w' => (f a).wp Q w') w := by
  show ∀ w, (m.bind f).wp Q w = _
  induction m with
  | ret a => intro w; rfl
  | run c k ih => intro w; simp only [Act.bind, Act.wp, ih]
  | malloc n k ih => intro w; simp only [Act.bind, Act.wp, ih]
  | free b k ih => intro w; simp only [Act.bind, Act.wp, ih]

theorem Act.wp_mono {α : Type} {m : Act C α} {Q Q' : α → World C → Prop} {w : World C}
    (h : m.wp Q w) (hi : ∀ a w', Q a w' → Q' a w') : m.wp Q' w := by
  induction m generalizing w with
  | ret a => exact hi _ _ h
  | run c k ih => exact AllSched.mono h fun hp hk => ih hk
  | malloc n k ih => exact ⟨ih _ h.1, fun b hb hl => ih _ (h.2 b hb hl)⟩
  | free b k ih => exact ⟨h.1, ih h.2⟩

/-- sequential composition of specifications -/
theorem Act.wp_seq {α β : Type} {m : Act C α} {f : α → Act C β} {P : α → World C → Prop}
    {Q : β → World C → Prop} {w : World C} (h : m.wp P w) (hf : ∀ a w', P a w' → (f a).wp Q w') :
    (m >>= f).wp Q w := by
  rw [Act.wp_bind]; exact Act.wp_mono h hf

/-- no execution of a program with a `wp` has undefined behaviour -/
theorem Act.wp_noUB {α : Type} {m : Act C α} {Q : α → World C → Prop} {w : World C}
    (h : m.wp Q w) : ¬ m.MayUB w := by
  intro hu
  induction hu with
  | code hc => obtain ⟨d, hr, hd⟩ := hc; exact AllSched.noUB h hr hd
  | run hr hf _ ih => exact ih (AllSched.final h hr hf)
  | mallocFail _ ih => exact ih h.1
  | mallocOk b hb hl _ ih => exact ih (h.2 b hb hl)
  | badFree hb => exact hb h.1
  | free _ _ ih => exact ih h.2

/-- and every execution ends in the postcondition -/
theorem Act.wp_runs {α : Type} {m : Act C α} {Q : α → World C → Prop} {w w' : World C} {a : α}
    (h : m.wp Q w) (hr : m.Runs w a w') : Q a w' := by
  induction hr with
  | ret => exact h
  | run hr hf _ ih => exact ih (AllSched.final h hr hf)
  | mallocFail _ ih => exact ih h.1
  | mallocOk b hb hl _ ih => exact ih (h.2 b hb hl)
  | free _ _ ih => exact ih h.2

/-- and there is an execution in which every `malloc` succeeds (as long as the set of allocated
blocks is finite) -/
theorem Act.wp_exists {α : Type} {m : Act C α} {Q : α → World C → Prop} {w : World C}
    (h : m.wp Q w) (hfin : w.live.Finite) : ∃ a w', m.Runs w a w' := by
  induction m generalizing w with
  | ret a => exact ⟨a, w, .ret⟩
  | run c k ih =>
    obtain ⟨d, hr, hf, hq⟩ := AllSched.terminates h
    obtain ⟨a, w', hw⟩ := ih hq hfin
    exact ⟨a, w', .run hr hf hw⟩
  | malloc n k ih =>
    obtain ⟨b, hb⟩ := (hfin.insert 0).exists_notMem
    rw [Set.mem_insert_iff, not_or] at hb
    obtain ⟨a, w', hw⟩ := ih (some b) (h.2 b hb.1 hb.2) (hfin.insert b)
    exact ⟨a, w', .mallocOk b hb.1 hb.2 hw⟩
  | free b k ih =>
    obtain ⟨a, w', hw⟩ := ih h.2 (hfin.subset Set.sdiff_subset)
    exact ⟨a, w', .free h.1 hw⟩

theorem Act.NoFail_bind {α β : Type} {P : β → Prop} (m : Act C α) (f : α → Act C β) :
    (m >>= f).NoFail P ↔ m.NoFail (fun a => (f a).NoFail P) := by
  show (m.bind f).NoFail P ↔ _
  induction m with
  | ret a => rfl
  | run c k ih => exact ih
  | malloc n k ih => exact forall_congr' fun b => ih (some b)
  | free b k ih => exact ih

theorem Act.NoFail_mono {α : Type} {P Q : α → Prop} {m : Act C α} (h : m.NoFail P)
    (hi : ∀ a, P a → Q a) : m.NoFail Q := by
  induction m with
  | ret a => exact hi _ h
  | run c k ih => exact ih h
  | malloc n k ih => exact fun b => ih (some b) (h b)
  | free b k ih => exact ih h

theorem Act.NoFail_seq {α β : Type} {m : Act C α} {f : α → Act C β} {P : α → Prop} {Q : β → Prop}
    (h : m.NoFail P) (hf : ∀ a, P a → (f a).NoFail Q) : (m >>= f).NoFail Q :=
  (Act.NoFail_bind m f).2 (Act.NoFail_mono h hf)

/-- if nothing runs out of memory there is an execution, it ends in the postcondition and with a
result satisfying `P` -/
theorem Act.wp_exists_ok {α : Type} {m : Act C α} {Q : α → World C → Prop} {P : α → Prop} {w : World C}
    (h : m.wp Q w) (hP : m.NoFail P) (hfin : w.live.Finite) : ∃ a w', m.Runs w a w' ∧ P a ∧ Q a w' := by
  induction m generalizing w with
  | ret a => exact ⟨a, w, .ret, hP, h⟩
  | run c k ih =>
    obtain ⟨d, hr, hf, hq⟩ := AllSched.terminates h
    obtain ⟨a, w', hw, h1, h2⟩ := ih hq hP hfin
    exact ⟨a, w', .run hr hf hw, h1, h2⟩
  | malloc n k ih =>
    obtain ⟨b, hb⟩ := (hfin.insert 0).exists_notMem
    rw [Set.mem_insert_iff, not_or] at hb
    obtain ⟨a, w', hw, h1, h2⟩ := ih (some b) (h.2 b hb.1 hb.2) (hP b) (hfin.insert b)
    exact ⟨a, w', .mallocOk b hb.1 hb.2 hw, h1, h2⟩
  | free b k ih =>
    obtain ⟨a, w', hw, h1, h2⟩ := ih h.2 hP (hfin.subset Set.sdiff_subset)
    exact ⟨a, w', .free h.1 hw, h1, h2⟩

theorem Act.wp_exec {c : Code C} {w : World C} {R D : Set Loc} {h' : Heap C}
    {Q : Unit → World C → Prop} (g : Good R D c w.heap h') (hq : Q () ⟨h', w.live⟩) :
    (Act.exec c).wp Q w := by
  refine AllSched.mono g.allSched ?_
  rintro k rfl
  exact hq

/-! ### Ownership -/

/-- the memory consists of the blocks `E` of everybody else and the blocks `bs` of one object,
each owned once -/
structure Owned (E : Set Nat) (bs : List Nat) (w : World C) : Prop where
  wf : w.WF
  nodup : bs.Nodup
  disj : ∀ b ∈ bs, b ∉ E
  live : w.live = E ∪ {b | b ∈ bs}

/-- nothing changed in the blocks `E` -/
def Same (E : Set Nat) (h h' : Heap C) : Prop := ∀ l : Loc, l.1 ∈ E → h' l = h l

theorem Same.refl (E : Set Nat) (h : Heap C) : Same E h h := fun _ _ => rfl
theorem Same.trans {E : Set Nat} {h1 h2 h3 : Heap C} (a : Same E h1 h2) (b : Same E h2 h3) :
    Same E h1 h3 := fun l hl => (b l hl).trans (a l hl)
theorem Same.mono {E E' : Set Nat} {h h' : Heap C} (a : Same E h h') (he : E' ⊆ E) :
    Same E' h h' := fun l hl => a l (he hl)

theorem Owned.live_iff {E : Set Nat} {bs : List Nat} {w : World C} (o : Owned E bs w) (b : Nat) :
    b ∈ w.live ↔ b ∈ E ∨ b ∈ bs := by rw [o.live]; rfl

/-- give part of the blocks to the environment -/
theorem Owned.split {E : Set Nat} {as bs : List Nat} {w : World C} (o : Owned E (as ++ bs) w) :
    Owned (E ∪ {b | b ∈ bs}) as w where
  wf := o.wf
  nodup := (List.nodup_append.1 o.nodup).1
  disj b hb := by
    rintro (h | h)
    · exact o.disj b (List.mem_append_left _ hb) h
    · exact (List.nodup_append.1 o.nodup).2.2 b hb b h rfl
  live := by
    rw [o.live]; ext b
    simp only [Set.mem_union, Set.mem_ofPred_eq, List.mem_append]; tauto

/-- take blocks back from the environment -/
theorem Owned.join {E : Set Nat} {as bs : List Nat} {w : World C}
    (o : Owned (E ∪ {b | b ∈ bs}) as w) (hnd : bs.Nodup) (hd : ∀ b ∈ bs, b ∉ E) :
    Owned E (as ++ bs) w where
  wf := o.wf
  nodup := List.nodup_append.2 ⟨o.nodup, hnd, fun a ha b hb e => by
    subst e; exact o.disj a ha (Or.inr hb)⟩
  disj b hb := by
    rcases List.mem_append.1 hb with h | h
    · exact fun he => o.disj b h (Or.inl he)
    · exact hd b h
  live := by
    rw [o.live]; ext b
    simp only [Set.mem_union, Set.mem_ofPred_eq, List.mem_append]; tauto

theorem Owned.perm {E : Set Nat} {as bs : List Nat} {w : World C} (o : Owned E as w)
    (p : as.Perm bs) : Owned E bs w where
  wf := o.wf
  nodup := p.nodup_iff.1 o.nodup
  disj b hb := o.disj b (p.mem_iff.2 hb)
  live := by rw [o.live]; ext b; simp only [Set.mem_union, Set.mem_ofPred_eq, p.mem_iff]

theorem Owned.right {E : Set Nat} {as bs : List Nat} {w : World C} (o : Owned E (as ++ bs) w) :
    bs.Nodup ∧ ∀ b ∈ bs, b ∉ E :=
  ⟨(List.nodup_append.1 o.nodup).2.1, fun b hb => o.disj b (List.mem_append_right _ hb)⟩

/-- work on the blocks `as` while the blocks `bs` rest -/
theorem Act.wp_part {α : Type} {E : Set Nat} {as bs : List Nat} {w : World C} {m : Act C α}
    {Q : α → World C → Prop} (o : Owned E (as ++ bs) w)
    (h : Owned (E ∪ {b | b ∈ bs}) as w → m.wp Q w) : m.wp Q w := h o.split

theorem Owned.freed {E : Set Nat} {b : Nat} {bs : List Nat} {w : World C} (o : Owned E (b :: bs) w) :
    Owned E bs (w.free b) where
  wf := by
    refine ⟨fun h => o.wf.null h.1, fun l hl => ?_⟩
    show (if l.1 = b then none else w.heap l) = none
    split
    · rfl
    · rename_i hb
      exact o.wf.dead l fun hl' => hl ⟨hl', hb⟩
  nodup := (List.nodup_cons.1 o.nodup).2
  disj c hc := o.disj c (List.mem_cons_of_mem _ hc)
  live := by
    show w.live \ {b} = _
    rw [o.live]; ext c
    simp only [Set.mem_sdiff, Set.mem_union, Set.mem_ofPred_eq, List.mem_cons, Set.mem_singleton_iff]
    constructor
    · rintro ⟨h | h | h, hne⟩
      · exact Or.inl h
      · exact absurd h hne
      · exact Or.inr h
    · rintro (h | h)
      · exact ⟨Or.inl h, fun e => o.disj b (List.mem_cons_self) (e ▸ h)⟩
      · exact ⟨Or.inr (Or.inr h), fun e => (List.nodup_cons.1 o.nodup).1 (e ▸ h)⟩

theorem Owned.same_free {E : Set Nat} {b : Nat} {bs : List Nat} {w : World C}
    (o : Owned E (b :: bs) w) : Same E w.heap (w.free b).heap := by
  intro l hl
  show (if l.1 = b then none else w.heap l) = _
  rw [if_neg]
  rintro rfl
  exact o.disj _ (List.mem_cons_self) hl

theorem Owned.alloced {E : Set Nat} {b n : Nat} {bs : List Nat} {w : World C} (o : Owned E bs w)
    (h0 : b ≠ 0) (hb : b ∉ w.live) : Owned E (b :: bs) (w.alloc b n) where
  wf := by
    refine ⟨fun h => ?_, fun l hl => ?_⟩
    · rcases h with h | h
      · exact h0 h.symm
      · exact o.wf.null h
    · show (if l.1 = b then (if l.2 < n then some none else none) else w.heap l) = none
      rw [if_neg, o.wf.dead l fun h => hl (Or.inr h)]
      intro e; exact hl (Or.inl e)
  nodup := List.nodup_cons.2 ⟨fun h => hb ((o.live_iff b).2 (Or.inr h)), o.nodup⟩
  disj c hc := by
    rcases List.mem_cons.1 hc with rfl | h
    · exact fun he => hb ((o.live_iff c).2 (Or.inl he))
    · exact o.disj c h
  live := by
    show insert b w.live = _
    rw [o.live]; ext c
    simp only [Set.mem_insert_iff, Set.mem_union, Set.mem_ofPred_eq, List.mem_cons]; tauto

theorem Owned.same_alloc {E : Set Nat} {b n : Nat} {bs : List Nat} {w : World C}
    (o : Owned E bs w) (hb : b ∉ w.live) : Same E w.heap (w.alloc b n).heap := by
  intro l hl
  show (if l.1 = b then _ else w.heap l) = _
  rw [if_neg]
  rintro rfl
  exact hb ((o.live_iff _).2 (Or.inl hl))

theorem World.alloc_alloc {w : World C} {b n : Nat} : Alloc (w.alloc b n).heap (Ptr.base b) n := by
  intro i hi
  simp [World.alloc, Ptr.base, Ptr.loc, hi]

theorem TrN.dead {α : Type} {R D : Set Loc} {n} {p : Prog C α} {h a h'} (t : TrN R D n p h a h') :
    ∀ l, h l = none → h' l = none := by
  induction t with
  | ret => intro l h; exact h
  | load _ _ _ ih => exact ih
  | @store n l v k h a h' hl hv _ ih =>
    intro l' hn
    apply ih
    rw [Heap.set_ne _ _ (by rintro rfl; exact hv hn)]; exact hn

theorem PhaseGood.dead {R D : Set Loc} {ts : List (Task C)} {h h'}
    (g : PhaseGood R D ts h h') : ∀ l, h l = none → h' l = none := by
  obtain ⟨Rs, Ds, hf, a, b, c, d, e⟩ := g
  intro l hl
  by_cases hm : ∀ i, i < ts.length → l ∉ Ds i
  · rw [e l hm]; exact hl
  · push Not at hm
    obtain ⟨i, hi, hm⟩ := hm
    rw [d i hi l hm]
    obtain ⟨n, t⟩ := a i ts[i] (by simp [hi])
    exact t.dead l hl

theorem Good.dead {R D : Set Loc} {c : Code C} {h h'} (g : Good R D c h h') :
    ∀ l, h l = none → h' l = none := by
  induction g with
  | nil => intro l h; exact h
  | cons p _ ih => intro l hl; exact ih l (p.dead l hl)

/-- running code keeps the ownership -/
theorem Owned.ran {R D : Set Loc} {c : Code C} {E : Set Nat} {bs : List Nat} {w : World C}
    {h' : Heap C} (o : Owned E bs w) (g : Good R D c w.heap h') : Owned E bs ⟨h', w.live⟩ where
  wf := ⟨o.wf.null, fun l hl => g.dead l (o.wf.dead l hl)⟩
  nodup := o.nodup
  disj := o.disj
  live := o.live

end OTFFT
