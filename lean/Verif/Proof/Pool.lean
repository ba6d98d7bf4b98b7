/-
Client programs with many objects.
-/
import Verif.Proof.Foot

namespace OTFFT

variable {C α : Type}

/-! ### Frame rule -/

/-- `w` consists of `w1` and, in the blocks `E`, of `f` -/
structure Join (E : Set Nat) (f : Heap C) (w1 w : World C) : Prop where
  wf1 : w1.WF
  wf : w.WF
  live : w.live = w1.live ∪ E
  disj : ∀ b ∈ w1.live, b ∉ E
  small : ∀ l : Loc, l.1 ∈ w1.live → w.heap l = w1.heap l
  rest : ∀ l : Loc, l.1 ∈ E → w.heap l = f l

theorem AllSched.frame {Q : Heap C → Prop} {c : Config C} (a : AllSched Q c) (L : Set Nat)
    (hg : ∀ l : Loc, l.1 ∉ L → c.heap l = none) : ∀ h : Heap C, (∀ l : Loc, l.1 ∈ L → h l = c.heap l) →
      AllSchedF Set.univ {l | l.1 ∈ L} (fun h' => ∃ g', Q g' ∧ (∀ l : Loc, l.1 ∈ L → h' l = g' l) ∧
        (∀ l : Loc, l.1 ∉ L → h' l = h l ∧ g' l = none) ∧ (∀ l, h' l = none ↔ h l = none)) ⟨c.cur, c.rest, h⟩ := by
  induction a with
  | @intro c nu post _ ih =>
    intro h hL
    have le : c.heap.Le h := fun l hl => hL l (by by_contra hc; exact hl (hg l hc))
    have bad : ∀ t ∈ c.cur, t.Bad h → False := by
      intro t ht hb
      refine nu (Or.inl ⟨t, ht, ?_⟩)
      cases hb with
      | ub => exact .ub
      | load hv => exact .load fun v hv' => hv v ((le _ (by intro e; exact absurd (hv'.symm.trans e) (by simp))).trans hv')
      | store hv =>
        refine .store ?_
        by_contra hc
        exact hc ((le _ hc).symm.trans hv)
    have foot : ∀ t ∈ c.cur, ∀ l b, Prog.access t = some (l, b) → l.1 ∈ L := by
      intro t ht l b ha
      by_contra hc
      have hn := hg l hc
      refine nu (Or.inl ⟨t, ht, ?_⟩)
      cases t with
      | ret => cases ha
      | ub => cases ha
      | load l' k => cases ha; exact .load (by simp [hn])
      | store l' v k => cases ha; exact .store hn
    refine .intro ?_ ?_ ?_ ?_
    · rintro (⟨t, ht, hb⟩ | hr)
      · exact bad t ht hb
      · exact nu (Or.inr hr)
    · intro t ht l b ha
      have := foot t ht l b ha
      cases b with
      | true => exact this
      | false => trivial
    · intro hf
      exact ⟨c.heap, post hf, hL, fun l hl => ⟨rfl, hg l hl⟩, fun l => Iff.rfl⟩
    · rintro ⟨cur', rest', h'⟩ s
      obtain ⟨g', s', le', -⟩ := s.project (S := ∅) le (fun hu => nu hu) (fun _ _ _ _ h => h)
      have hout : ∀ l : Loc, l.1 ∉ L → h' l = h l := by
        intro l hl
        obtain ⟨ccur, crest, cheap⟩ := c
        cases s with
        | barrier => rfl
        | task i hi st =>
          cases st with
          | load => rfl
          | @store _ l' v _ hv =>
            refine Heap.set_ne _ _ ?_
            rintro rfl
            exact hl (foot _ (List.mem_of_getElem? hi) _ _ rfl)
      have hin : ∀ l : Loc, l.1 ∈ L → h' l = g' l := by
        intro l hl
        by_cases e : g' l = none
        · have e1 : c.heap l = none := (s'.heap_none l).1 e
          rw [e, (s.heap_none l)]
          show h l = none
          rw [hL l hl, e1]
        · exact le' l e
      refine (ih ⟨cur', rest', g'⟩ s' (fun l hl => (s'.heap_none l).2 (hg l hl)) h' hin).mono subset_rfl subset_rfl ?_
      rintro k ⟨g'', q, h1, h2, h3⟩
      exact ⟨g'', q, h1, fun l hl => ⟨((h2 l hl).1).trans (hout l hl), (h2 l hl).2⟩,
        fun l => (h3 l).trans (s.heap_none l)⟩

/-- A program that is fine in a small memory is fine in a larger one and leaves the rest alone. -/
theorem Act.wp_frame {S : Set Loc} {B E : Set Nat} {f : Heap C} (hB : B ⊆ E) (hS : ∀ l ∈ S, l.1 ∈ B) {m : Act C α}
    {Q : α → World C → Prop} {w1 w : World C} (h : m.wp Q w1) (j : Join E f w1 w) :
    m.wpC S B (fun a w' => ∃ w1', Q a w1' ∧ Join E f w1' w') w := by
  induction m generalizing w1 w with
  | ret a => exact ⟨w1, h, j⟩
  | run c k ih =>
    refine AllSchedF.mono (AllSched.frame h w1.live (fun l hl => j.wf1.dead l hl) w.heap (fun l hl => j.small l hl))
      subset_rfl (fun l hl hs => j.disj _ hl (hB (hS l hs))) ?_
    rintro h' ⟨g', hk, h1, h2, h3⟩
    refine ih hk ⟨⟨j.wf1.null, fun l hl => (h2 l hl).2⟩, ⟨j.wf.null, fun l hl => (h3 l).2 (j.wf.dead l hl)⟩, j.live, j.disj, h1, ?_⟩
    intro l hl
    exact ((h2 l fun h => j.disj _ h hl).1).trans (j.rest l hl)
  | malloc n k ih =>
    refine ⟨ih none h.1 j, fun b hb hl => ih (some b) (h.2 b hb fun hb' => hl (by rw [j.live]; exact Or.inl hb')) ?_⟩
    have hbE : b ∉ E := fun h => hl (by rw [j.live]; exact Or.inr h)
    refine ⟨?_, ?_, ?_, ?_, ?_, ?_⟩
    · refine ⟨fun h0 => ?_, fun l hn => ?_⟩
      · rcases h0 with h0 | h0
        · exact hb h0.symm
        · exact j.wf1.null h0
      · show (if l.1 = b then _ else w1.heap l) = none
        rw [if_neg (fun e => hn (Or.inl e)), j.wf1.dead l fun h => hn (Or.inr h)]
    · refine ⟨fun h0 => ?_, fun l hn => ?_⟩
      · rcases h0 with h0 | h0
        · exact hb h0.symm
        · exact j.wf.null h0
      · show (if l.1 = b then _ else w.heap l) = none
        rw [if_neg (fun e => hn (Or.inl e)), j.wf.dead l fun h => hn (Or.inr h)]
    · show insert b w.live = insert b w1.live ∪ E
      rw [j.live, Set.insert_union]
    · rintro c (rfl | h)
      · exact hbE
      · exact j.disj c h
    · intro l hl'
      show (if l.1 = b then _ else w.heap l) = (if l.1 = b then _ else w1.heap l)
      by_cases e : l.1 = b
      · rw [if_pos e, if_pos e]
      · rw [if_neg e, if_neg e, j.small l (hl'.resolve_left e)]
    · intro l hl'
      show (if l.1 = b then _ else w.heap l) = _
      rw [if_neg (fun e : l.1 = b => hbE (e ▸ hl')), j.rest l hl']
  | free b k ih =>
    refine ⟨by rw [j.live]; exact Or.inl h.1, fun hb => j.disj _ h.1 (hB hb), ih h.2 ?_⟩
    refine ⟨?_, ?_, ?_, fun c hc => j.disj c hc.1, ?_, ?_⟩
    · refine ⟨fun h0 => j.wf1.null h0.1, fun l hn => ?_⟩
      show (if l.1 = b then none else w1.heap l) = none
      split
      · rfl
      · rename_i e; exact j.wf1.dead l fun h => hn ⟨h, e⟩
    · refine ⟨fun h0 => j.wf.null h0.1, fun l hn => ?_⟩
      show (if l.1 = b then none else w.heap l) = none
      split
      · rfl
      · rename_i e; exact j.wf.dead l fun h => hn ⟨h, e⟩
    · show w.live \ {b} = (w1.live \ {b}) ∪ E
      rw [j.live]
      ext c
      simp only [Set.mem_sdiff, Set.mem_union, Set.mem_singleton_iff]
      constructor
      · rintro ⟨h | h, e⟩
        · exact Or.inl ⟨h, e⟩
        · exact Or.inr h
      · rintro (h' | h')
        · exact ⟨Or.inl h'.1, h'.2⟩
        · exact ⟨Or.inr h', fun e => j.disj b h.1 (e ▸ h')⟩
    · intro l hl
      show (if l.1 = b then none else w.heap l) = (if l.1 = b then none else w1.heap l)
      rw [if_neg (show ¬ l.1 = b from hl.2), if_neg (show ¬ l.1 = b from hl.2), j.small l hl.1]
    · intro l hl
      show (if l.1 = b then none else w.heap l) = _
      rw [if_neg (fun e : l.1 = b => j.disj b h.1 (e ▸ hl)), j.rest l hl]

open Classical in
/-- the part of the heap in the cells `A` -/
noncomputable def Heap.restrict (h : Heap C) (A : Set Loc) : Heap C := fun l => if l ∈ A then h l else none

theorem Heap.restrict_of {h : Heap C} {A : Set Loc} {l : Loc} (hl : l ∈ A) : h.restrict A l = h l := by
  simp [Heap.restrict, hl]
theorem Heap.restrict_not {h : Heap C} {A : Set Loc} {l : Loc} (hl : l ∉ A) : h.restrict A l = none := by
  simp [Heap.restrict, hl]
theorem Heap.restrict_le (h : Heap C) (A : Set Loc) : (h.restrict A).Le h := by
  intro l hl
  by_cases e : l ∈ A
  · rw [Heap.restrict_of e]
  · exact absurd (Heap.restrict_not e) hl
theorem Heap.restrict_mem {h : Heap C} {A : Set Loc} {l : Loc} (hl : h.restrict A l ≠ none) : l ∈ A := by
  by_contra e; exact hl (Heap.restrict_not e)

/-- the part of the memory in the blocks `L` -/
noncomputable def World.only (w : World C) (L : Set Nat) : World C := ⟨w.heap.restrict {l | l.1 ∈ L}, L⟩

theorem World.only_join {w : World C} (wf : w.WF) {L : Set Nat} (hL : L ⊆ w.live) : Join (w.live \ L) w.heap (w.only L) w where
  wf1 := ⟨fun h => wf.null (hL h), fun l hl => Heap.restrict_not hl⟩
  wf := wf
  live := by show w.live = L ∪ (w.live \ L); rw [Set.union_sdiff_cancel hL]
  disj b hb h := h.2 hb
  small l hl := (Heap.restrict_of (A := {l : Loc | l.1 ∈ L}) hl).symm
  rest l _ := rfl

/-! ### Invariant of a client program -/

variable {F : Type} [DArith F] [CArith F C] [Inhabited C] {thr : Thr}

def Slot.blocks (v : Slot C thr) : List Nat := (v.kind.spec C thr).blocks v.obj

def Slot.Ready (v : Slot C thr) (h : Heap C) : Prop := ∀ n, v.len = some n → (v.kind.spec C thr).Ready v.obj n h

def oblocks : Option (Slot C thr) → List Nat
  | none => []
  | some v => v.blocks

/-- `E` are the blocks that existed before; every other block belongs to exactly one object of the program -/
structure PoolInv (E : Set Nat) (σ : Vars C thr) (w : World C) : Prop where
  wf : w.WF
  live : ∀ b, b ∈ w.live ↔ b ∈ E ∨ ∃ s, b ∈ oblocks (σ s)
  nodup : ∀ s, (oblocks (σ s)).Nodup
  out : ∀ s, ∀ b ∈ oblocks (σ s), b ∉ E
  disj : ∀ s t, s ≠ t → ∀ b ∈ oblocks (σ s), b ∉ oblocks (σ t)
  ready : ∀ s v, σ s = some v → v.Ready w.heap

theorem PoolInv.empty {w : World C} (wf : w.WF) : PoolInv w.live (Vars.empty : Vars C thr) w where
  wf := wf
  live b := by
    constructor
    · exact Or.inl
    · rintro (h | ⟨s, h⟩)
      · exact h
      · cases h
  nodup _ := List.nodup_nil
  out s b h := by cases h
  disj s t _ b h := by cases h
  ready s v h := by cases h

theorem Vars.set_same (σ : Vars C thr) (s : Nat) (v : Option (Slot C thr)) : σ.set s v s = v := by simp [Vars.set]
theorem Vars.set_ne (σ : Vars C thr) {s t : Nat} (v : Option (Slot C thr)) (h : t ≠ s) : σ.set s v t = σ t := by
  simp [Vars.set, h]

theorem Vars.known_set (σ : Vars C thr) (s : Nat) (v : Option (Slot C thr)) :
    (σ.set s v).known = σ.known.set s (v.map fun v => (v.kind, v.len)) := by
  funext t
  unfold Vars.known Known.set Vars.set
  by_cases h : t = s <;> simp [h]

theorem Slot.Ready.frame {v : Slot C thr} {h h' : Heap C} (r : v.Ready h)
    (s : Same (insert 0 {b | b ∈ v.blocks}) h h') : v.Ready h' :=
  fun n hn => (v.kind.spec C thr).ready_frame (r n hn) s

theorem PoolInv.sub {E : Set Nat} {σ : Vars C thr} {w : World C} (I : PoolInv E σ w) (s : Nat) :
    {b | b ∈ oblocks (σ s)} ⊆ w.live := fun b hb => (I.live b).2 (Or.inr ⟨s, hb⟩)

/-- the blocks of one object -/
theorem PoolInv.owned {E : Set Nat} {σ : Vars C thr} {w : World C} (I : PoolInv E σ w) (s : Nat) :
    Owned (w.live \ {b | b ∈ oblocks (σ s)}) (oblocks (σ s)) w where
  wf := I.wf
  nodup := I.nodup s
  disj b hb h := h.2 hb
  live := by
    rw [Set.sdiff_union_of_subset (I.sub s)]

/-- the blocks of one object, alone -/
theorem PoolInv.only {E : Set Nat} {σ : Vars C thr} {w : World C} (I : PoolInv E σ w) (s : Nat) :
    Owned ∅ (oblocks (σ s)) (w.only {b | b ∈ oblocks (σ s)}) where
  wf := (World.only_join I.wf (I.sub s)).wf1
  nodup := I.nodup s
  disj b hb h := h
  live := by rw [Set.empty_union]; rfl

/-- an object is replaced by another one (or by nothing) -/
theorem PoolInv.replace {E : Set Nat} {σ : Vars C thr} {w w1 w' : World C} (I : PoolInv E σ w) (s : Nat) (v' : Option (Slot C thr))
    (j : Join (w.live \ {b | b ∈ oblocks (σ s)}) w.heap w1 w') (ho : Owned ∅ (oblocks v') w1)
    (hr : ∀ v, v' = some v → v.Ready w1.heap) :
    PoolInv E (σ.set s v') w' ∧ ∀ l : Loc, l.1 ∈ E → w'.heap l = w.heap l := by
  have hw1 : ∀ b, b ∈ w1.live ↔ b ∈ oblocks v' := fun b => by rw [ho.live_iff]; simp
  have hE : ∀ b ∈ E, b ∈ w.live \ {b | b ∈ oblocks (σ s)} := fun b hb => ⟨(I.live b).2 (Or.inl hb), fun h => I.out s b h hb⟩
  have hT : ∀ t, t ≠ s → ∀ b ∈ oblocks (σ t), b ∈ w.live \ {b | b ∈ oblocks (σ s)} := fun t ht b hb =>
    ⟨(I.live b).2 (Or.inr ⟨t, hb⟩), I.disj t s ht b hb⟩
  have h0 : ∀ l : Loc, l.1 = 0 → w'.heap l = none ∧ w1.heap l = none ∧ w.heap l = none := fun l hl =>
    ⟨j.wf.dead l (hl ▸ j.wf.null), j.wf1.dead l (hl ▸ j.wf1.null), I.wf.dead l (hl ▸ I.wf.null)⟩
  refine ⟨⟨j.wf, fun b => ?_, fun t => ?_, fun t b hb => ?_, fun t u htu b hb => ?_, fun t v hv => ?_⟩,
    fun l hl => j.rest l (hE _ hl)⟩
  · rw [j.live, Set.mem_union, hw1]
    constructor
    · rintro (h | ⟨h, h'⟩)
      · exact Or.inr ⟨s, by rw [Vars.set_same]; exact h⟩
      · rcases (I.live b).1 h with h | ⟨t, ht⟩
        · exact Or.inl h
        · refine Or.inr ⟨t, ?_⟩
          rw [Vars.set_ne]
          · exact ht
          · rintro rfl; exact h' ht
    · rintro (h | ⟨t, ht⟩)
      · exact Or.inr (hE b h)
      · by_cases e : t = s
        · subst e; rw [Vars.set_same] at ht; exact Or.inl ht
        · rw [Vars.set_ne _ _ e] at ht; exact Or.inr (hT t e b ht)
  · by_cases e : t = s
    · subst e; rw [Vars.set_same]; exact ho.nodup
    · rw [Vars.set_ne _ _ e]; exact I.nodup t
  · by_cases e : t = s
    · subst e
      rw [Vars.set_same] at hb
      exact fun h => j.disj b ((hw1 b).2 hb) (hE b h)
    · rw [Vars.set_ne _ _ e] at hb; exact I.out t b hb
  · by_cases e : t = s
    · subst e
      rw [Vars.set_same] at hb
      rw [Vars.set_ne _ _ (Ne.symm htu)]
      exact fun h => j.disj b ((hw1 b).2 hb) (hT u (Ne.symm htu) b h)
    · rw [Vars.set_ne _ _ e] at hb
      by_cases e' : u = s
      · subst e'
        rw [Vars.set_same]
        exact fun h => j.disj b ((hw1 b).2 h) (hT t e b hb)
      · rw [Vars.set_ne _ _ e']; exact I.disj t u htu b hb
  · by_cases e : t = s
    · subst e
      rw [Vars.set_same] at hv
      refine (hr v hv).frame fun l hl => ?_
      rcases hl with hl | hl
      · rw [(h0 l hl).1, (h0 l hl).2.1]
      · refine j.small l ((hw1 _).2 ?_)
        rw [hv]; exact hl
    · rw [Vars.set_ne _ _ e] at hv
      refine (I.ready t v hv).frame fun l hl => ?_
      rcases hl with hl | hl
      · rw [(h0 l hl).1, (h0 l hl).2.2]
      · refine j.rest l (hT t e _ ?_)
        rw [hv]; exact hl

/-- code runs that writes the client's cells and possibly one object -/
theorem PoolInv.ran {E : Set Nat} {σ : Vars C thr} {w : World C} {R D : Set Loc} {c : Code C} {h' : Heap C} (I : PoolInv E σ w)
    (g : Good R D c w.heap h')
    (hD : ∀ l ∈ D, l.1 ∈ E ∨ ∃ s v, σ s = some v ∧ l.1 ∈ v.blocks ∧ v.Ready h') : PoolInv E σ ⟨h', w.live⟩ where
  wf := ⟨I.wf.null, fun l hl => g.dead l (I.wf.dead l hl)⟩
  live := I.live
  nodup := I.nodup
  out := I.out
  disj := I.disj
  ready t v hv := by
    by_cases hr : v.Ready h'
    · exact hr
    · refine (I.ready t v hv).frame fun l hl => ?_
      rcases hl with hl | hl
      · rw [I.wf.dead l (hl ▸ I.wf.null)]
        exact g.dead l (I.wf.dead l (hl ▸ I.wf.null))
      · refine g.out l fun hd => ?_
        rcases hD l hd with h | ⟨s, u, hu, h1, h2⟩
        · exact I.out t l.1 (by rw [hv]; exact hl) h
        · by_cases e : t = s
          · subst e; rw [hv] at hu; cases hu; exact hr h2
          · exact I.disj t s e l.1 (by rw [hv]; exact hl) (by rw [hu]; exact h1)

omit [DArith F] [CArith F C] [Inhabited C] in
/-- the final heap of code that is fine is unique -/
theorem Good.det {R D R' D' : Set Loc} {c : Code C} {h h1 h2 : Heap C} (g : Good R D c h h1) (g' : Good R' D' c h h2) : h2 = h1 := by
  obtain ⟨d, r, f, q⟩ := g'.allSched.terminates
  rw [← q]
  exact AllSched.final g.allSched r f

/-- the shared objects that may be used are ready, and made of blocks that exist but are not the client's arrays -/
structure SharedInv (sh : Vars C thr) (E0 E : Set Nat) (h : Heap C) : Prop where
  nodup : ∀ s v, sh s = some v → v.kind.sharable = true → v.blocks.Nodup
  sub : ∀ s v, sh s = some v → v.kind.sharable = true → ∀ b ∈ v.blocks, b ∈ E ∧ b ∉ E0
  ready : ∀ s v, sh s = some v → v.kind.sharable = true → v.Ready h

theorem SharedInv.keep {sh : Vars C thr} {E0 E : Set Nat} {w w' : World C} (I : SharedInv sh E0 E w.heap) (wf : w.WF) (wf' : w'.WF)
    (h : ∀ l : Loc, l.1 ∈ E → l.1 ∉ E0 → w'.heap l = w.heap l) : SharedInv sh E0 E w'.heap :=
  ⟨I.nodup, I.sub, fun s v hv hk => (I.ready s v hv hk).frame fun l hl => by
    rcases hl with hl | hl
    · rw [wf.dead l (hl ▸ wf.null), wf'.dead l (hl ▸ wf'.null)]
    · have := I.sub s v hv hk _ hl
      exact h l this.1 this.2⟩

/-- what is known about the client's cells is true of the heap -/
def Tells (A : Set Loc) (h h' : Heap C) : Prop :=
  ∀ l ∈ A, (h l ≠ none → h' l ≠ none) ∧ ((∃ v, h l = some (some v)) → ∃ v, h' l = some (some v))

theorem Tells.refl (A : Set Loc) (h : Heap C) : Tells A h h := fun _ _ => ⟨id, id⟩

theorem Tells.same {A : Set Loc} {h h1 h2 : Heap C} (s : Tells A h h1) (e : ∀ l ∈ A, h2 l = h1 l) : Tells A h h2 :=
  fun l hl => by rw [e l hl]; exact s l hl

theorem Tells.keeps {A : Set Loc} {h h' : Heap C} (s : Tells A h h') (E0 : Set Nat) : KeepsInit E0 (h.restrict A) h' := by
  intro l _
  by_cases hl : l ∈ A
  · rw [Heap.restrict_of hl]; exact s l hl
  · rw [Heap.restrict_not hl]; exact ⟨fun h => absurd rfl h, fun ⟨_, h⟩ => by cases h⟩

theorem Tells.touch {A R D : Set Loc} {h h1 h2 : Heap C} {Rr : Set Loc} {c : Code C} (s : Tells A h h1) (g : Good Rr D c h1 h2)
    (hR : ∀ l ∈ R, ∃ v, h2 l = some (some v)) : Tells A (h.touch R) h2 := by
  intro l hl
  unfold Heap.touch
  by_cases e : l ∈ R
  · rw [if_pos e]
    obtain ⟨v, hv⟩ := hR l e
    exact ⟨fun _ => by rw [hv]; simp, fun _ => ⟨v, hv⟩⟩
  · rw [if_neg e]
    exact ⟨fun h => g.alloc l ((s l hl).1 h), fun h => g.init l ((s l hl).2 h)⟩

theorem Kind.valid_shape {k : Kind} {n : Nat} {c : (k.cls C thr).Call} {A : Set Loc} {E0 : Set Nat} {shape h : Heap C}
    (ok : k.callOK n c shape) (hA : k.arrays n c ⊆ A) (hE : ∀ l ∈ A, l.1 ∈ E0) (h0 : 0 ∉ E0) (s : Tells A shape h) :
    (k.spec C thr).Valid n c E0 h := by
  have ok' : k.callOK n c (shape.restrict A) := ok.congr hA fun l hl => Heap.restrict_of hl
  have wf : World.WF ⟨shape.restrict A, E0⟩ := ⟨h0, fun l hl => Heap.restrict_not fun h => hl (hE l h)⟩
  exact (k.spec C thr).valid_keeps (Kind.valid wf ok') (s.keeps E0)

theorem Kind.writes_sub (thr : Thr) (k : Kind) (n : Nat) (c : (k.cls C thr).Call) : k.writes n c ⊆ k.arrays n c := by
  cases k with
  | real =>
    intro l hl
    have c' : Entry × Ptr × Ptr := c
    rcases c with ⟨e, x, y⟩
    cases e <;> first | exact hl | exact Or.inr hl
  | _ => exact subset_rfl

theorem Slot.call_same {k : Kind} (o : (k.cls C thr).Obj) (len : Option Nat) (c : (k.cls C thr).Call) :
    (Slot.mk k o len).call k c = (k.cls C thr).call o c := by
  simp [Slot.call]

/-- A call on an own object. -/
theorem PoolInv.call {E E0 : Set Nat} {σ : Vars C thr} {w : World C} (I : PoolInv E σ w) (hE0 : E0 ⊆ E) {P A : Set Loc}
    (hA : ∀ l ∈ A, l.1 ∈ E0) {shape : Heap C} (hs : Tells A shape w.heap) {s : Nat} {k : Kind} {o : (k.cls C thr).Obj} {n : Nat}
    {c : (k.cls C thr).Call} (hσ : σ s = some ⟨k, o, some n⟩) (ok : k.callOK n c shape) (harr : k.arrays n c ⊆ A)
    (hwr : k.writes n c ⊆ P) (hP : P ⊆ A) :
    ∃ h', Good (k.arrays n c ∪ {l | l.1 ∈ insert 0 {b | b ∈ oblocks (σ s)}}) (k.writes n c ∪ {l | k.sharable = false ∧ l.1 ∈ oblocks (σ s)}) ((k.cls C thr).call o c) w.heap h' ∧
      (∀ v, Arr w.heap (k.input c) (k.need n c) v → Arr h' (k.output c) n (k.out C thr n (k.fn c) v)) ∧ Tells A (shape.touch (k.result n c)) h' ∧ PoolInv E σ ⟨h', w.live⟩ := by
  have h0 : 0 ∉ E0 := fun h => I.wf.null ((I.live 0).2 (Or.inl (hE0 h)))
  have ob : oblocks (σ s) = (k.spec C thr).blocks o := by rw [hσ]; rfl
  have hv := Kind.valid_shape (thr := thr) ok harr hA h0 hs
  have hv' := (k.foot C thr).valid_mono hv (E' := w.live \ {b | b ∈ oblocks (σ s)}) fun b hb =>
    ⟨(I.live b).2 (Or.inl (hE0 hb)), fun h => I.out s b h (hE0 hb)⟩
  have ow : Owned (w.live \ {b | b ∈ oblocks (σ s)}) ((k.spec C thr).blocks o) w := by rw [← ob]; exact I.owned s
  obtain ⟨u, hu⟩ := ((k.foot C thr).filled hv').arr
  obtain ⟨h', g, hr, rd⟩ := (k.foot C thr).call ow (I.ready s _ hσ n rfl) hv' hu
  rw [Kind.foot_outp, Kind.foot_out] at hr
  rw [Kind.foot_inp, Kind.foot_need] at hu
  have eu : ∀ v, Arr w.heap (k.input c) (k.need n c) v → Arr h' (k.output c) n (k.out C thr n (k.fn c) v) := by
    intro v hv
    rw [← Kind.foot_inp, ← Kind.foot_need] at hv
    obtain ⟨h'', g', hr', -⟩ := (k.foot C thr).call ow (I.ready s _ hσ n rfl) hv' hv
    rw [Kind.foot_outp, Kind.foot_out] at hr'
    rw [← g.det g']
    exact hr'
  have hr : ∀ l ∈ k.result n c, ∃ v, h' l = some (some v) := hr.init_region
  rw [Kind.foot_wr, Kind.foot_frozen, Kind.foot_arr] at g
  refine ⟨h', g.mono (by rw [ob]) ?_, eu, hs.touch g hr, I.ran g ?_⟩
  · rintro l (h | h)
    · exact Or.inl h
    · exact Or.inr (by rw [ob]; exact h)
  · rintro l (h | h)
    · exact Or.inl (hE0 (hA l (hP (hwr h))))
    · refine Or.inr ⟨s, _, hσ, h.2, ?_⟩
      rintro m hm
      cases hm
      exact rd

/-- A call on a shared object. -/
theorem PoolInv.callShared {E E0 : Set Nat} {σ sh : Vars C thr} {w : World C} (I : PoolInv E σ w) (H : SharedInv sh E0 E w.heap)
    (hE0 : E0 ⊆ E) {P A : Set Loc}
    (hA : ∀ l ∈ A, l.1 ∈ E0) {shape : Heap C} (hs : Tells A shape w.heap) {s : Nat} {k : Kind} {o : (k.cls C thr).Obj} {n : Nat}
    {c : (k.cls C thr).Call} (hσ : sh s = some ⟨k, o, some n⟩) (hk : k.sharable = true) (ok : k.callOK n c shape)
    (harr : k.arrays n c ⊆ A) (hwr : k.writes n c ⊆ P) (hP : P ⊆ A) :
    ∃ h', Good (k.arrays n c ∪ {l | l.1 ∈ insert 0 {b | b ∈ (k.spec C thr).blocks o}}) (k.writes n c) ((k.cls C thr).call o c) w.heap h' ∧
      (∀ v, Arr w.heap (k.input c) (k.need n c) v → Arr h' (k.output c) n (k.out C thr n (k.fn c) v)) ∧ Tells A (shape.touch (k.result n c)) h' ∧ PoolInv E σ ⟨h', w.live⟩ := by
  have h0 : 0 ∉ E0 := fun h => I.wf.null ((I.live 0).2 (Or.inl (hE0 h)))
  have hv := Kind.valid_shape (thr := thr) ok harr hA h0 hs
  have hb : ∀ b ∈ (k.spec C thr).blocks o, b ∈ E ∧ b ∉ E0 := H.sub s _ hσ hk
  have hv' := (k.foot C thr).valid_mono hv (E' := w.live \ {b | b ∈ (k.spec C thr).blocks o}) fun b hb' =>
    ⟨(I.live b).2 (Or.inl (hE0 hb')), fun h => (hb b h).2 hb'⟩
  have ow : Owned (w.live \ {b | b ∈ (k.spec C thr).blocks o}) ((k.spec C thr).blocks o) w :=
    ⟨I.wf, H.nodup s _ hσ hk, fun b hb h => h.2 hb, by
      exact (Set.sdiff_union_of_subset (t := {b | b ∈ (k.spec C thr).blocks o}) fun b h => (I.live b).2 (Or.inl (hb b h).1)).symm⟩
  obtain ⟨u, hu⟩ := ((k.foot C thr).filled hv').arr
  obtain ⟨h', g, hr, rd⟩ := (k.foot C thr).call ow (H.ready s _ hσ hk n rfl) hv' hu
  rw [Kind.foot_outp, Kind.foot_out] at hr
  rw [Kind.foot_inp, Kind.foot_need] at hu
  have eu : ∀ v, Arr w.heap (k.input c) (k.need n c) v → Arr h' (k.output c) n (k.out C thr n (k.fn c) v) := by
    intro v hv
    rw [← Kind.foot_inp, ← Kind.foot_need] at hv
    obtain ⟨h'', g', hr', -⟩ := (k.foot C thr).call ow (H.ready s _ hσ hk n rfl) hv' hv
    rw [Kind.foot_outp, Kind.foot_out] at hr'
    rw [← g.det g']
    exact hr'
  have hr : ∀ l ∈ k.result n c, ∃ v, h' l = some (some v) := hr.init_region
  rw [Kind.foot_wr, Kind.foot_frozen, hk, Kind.foot_arr] at g
  have g := g.mono subset_rfl (D' := k.writes n c) (by
    rintro l (h | h)
    · exact h
    · exact absurd h.1 (by simp))
  exact ⟨h', g, eu, hs.touch g hr, I.ran g fun l h => Or.inl (hE0 (hA l (hP (hwr h))))⟩

theorem Good.store {h : Heap C} {l : Loc} (v : C) (hl : h l ≠ none) :
    Good Set.univ {l} [[.store l v (.ret ())]] h (h.set l v) := by
  exact Good.single (.store rfl hl .ret)

/-- The main lemma about client programs. -/
theorem Client.run_spec {P Rd S : Set Loc} {E E0 : Set Nat} {sh : Vars C thr} (hE0 : E0 ⊆ E) (hA : ∀ l ∈ P ∪ Rd, l.1 ∈ E0)
    (hS : ∀ l ∈ S, l.1 ∈ E) (hSP : ∀ l ∈ P, l ∉ S) (p : Client C thr) :
    ∀ (σ : Vars C thr) (w : World C) (shape : Heap C), PoolInv E σ w → SharedInv sh E0 E w.heap → Tells (P ∪ Rd) shape w.heap →
      p.OK P Rd sh.known σ.known shape →
      (p.run sh σ).wpC S E (fun σ' w' => PoolInv E σ' w' ∧ Tells (P ∪ Rd) w.heap w'.heap ∧
        ∀ l : Loc, l.1 ∈ E → l ∉ P → w'.heap l = w.heap l) w := by
  have keep : ∀ {σ σ' : Vars C thr} {w w' : World C}, PoolInv E σ w → PoolInv E σ' w' → SharedInv sh E0 E w.heap →
      (∀ l : Loc, l.1 ∈ E → w'.heap l = w.heap l) → SharedInv sh E0 E w'.heap :=
    fun I I' H same => H.keep I.wf I'.wf fun l hl _ => same l hl
  have after : ∀ {σ σ' : Vars C thr} {w w' : World C} {shape : Heap C} {m : Act C (Vars C thr)}, PoolInv E σ w → PoolInv E σ' w' →
      SharedInv sh E0 E w.heap → Tells (P ∪ Rd) shape w.heap → (∀ l : Loc, l.1 ∈ E → w'.heap l = w.heap l) →
      m.wpC S E (fun σ' w'' => PoolInv E σ' w'' ∧ Tells (P ∪ Rd) w'.heap w''.heap ∧
        ∀ l : Loc, l.1 ∈ E → l ∉ P → w''.heap l = w'.heap l) w' →
      m.wpC S E (fun σ' w'' => PoolInv E σ' w'' ∧ Tells (P ∪ Rd) w.heap w''.heap ∧
        ∀ l : Loc, l.1 ∈ E → l ∉ P → w''.heap l = w.heap l) w' := by
    intro σ σ' w w' shape m I I' H hs same h
    refine Act.wpC_mono h ?_
    rintro a w'' ⟨h1, h2, h3⟩
    refine ⟨h1, fun l hl => ?_, fun l hl hp => (h3 l hl hp).trans (same l hl)⟩
    rw [← same l (hE0 (hA l hl))]; exact h2 l hl
  have after' : ∀ {σ : Vars C thr} {w : World C} {D : Set Loc} {c : Code C} {h' : Heap C} {m : Act C (Vars C thr)}, PoolInv E σ w →
      PoolInv E σ ⟨h', w.live⟩ → SharedInv sh E0 E w.heap → Good Set.univ D c w.heap h' → (∀ l : Loc, l.1 ∈ E → l ∈ D → l ∈ P) →
      m.wpC S E (fun σ' w'' => PoolInv E σ' w'' ∧ Tells (P ∪ Rd) h' w''.heap ∧
        ∀ l : Loc, l.1 ∈ E → l ∉ P → w''.heap l = h' l) ⟨h', w.live⟩ →
      m.wpC S E (fun σ' w'' => PoolInv E σ' w'' ∧ Tells (P ∪ Rd) w.heap w''.heap ∧
        ∀ l : Loc, l.1 ∈ E → l ∉ P → w''.heap l = w.heap l) ⟨h', w.live⟩ := by
    intro σ w D c h' m I I' H g hD h
    refine Act.wpC_mono h ?_
    rintro a w'' ⟨h1, h2, h3⟩
    refine ⟨h1, fun l hl => ⟨fun h => (h2 l hl).1 (g.alloc l h), fun h => (h2 l hl).2 (g.init l h)⟩,
      fun l hl hp => (h3 l hl hp).trans (g.out l fun hd => hp (hD l hl hd))⟩
  induction p with
  | done => exact fun σ w shape I H hs ok => ⟨I, Tells.refl _ _, fun _ _ _ => rfl⟩
  | new s k n ok threw ih1 ih2 =>
    rintro σ w shape I H hs ⟨h1, h2, h3, h4⟩
    have e : σ s = none := by simpa [Vars.known] using h1
    have hfr : E ⊆ w.live \ {b | b ∈ oblocks (σ s)} := fun b hb => ⟨(I.live b).2 (Or.inl hb), fun h => I.out s b h hb⟩
    have ow : Owned ∅ [] (w.only {b | b ∈ oblocks (σ s)}) := by
      have := I.only s
      rw [e] at this ⊢
      exact this
    refine Act.wpC_seq (Act.wp_frame hfr hS ((k.spec C thr).create_spec n (Kind.spec_setup thr k n h2) ow)
      (World.only_join I.wf (I.sub s))) ?_
    rintro r w' ⟨w1, ⟨-, hr⟩, j⟩
    cases r with
    | none =>
      obtain ⟨I', same⟩ := I.replace s none j hr (by simp)
      have e' : σ.set s none = σ := by
        funext t
        by_cases ht : t = s
        · subst ht; rw [Vars.set_same, e]
        · rw [Vars.set_ne _ _ ht]
      rw [e'] at I'
      exact after I I' H hs same (ih2 σ w' shape I' (keep I I' H same) (hs.same fun l hl => same l (hE0 (hA l hl))) h4)
    | some o =>
      obtain ⟨I', same⟩ := I.replace s (some ⟨k, o, some n.toNat⟩) j hr.1 (by rintro _ ⟨⟩ m ⟨⟩; exact hr.2)
      refine after I I' H hs same (ih1 _ w' shape I' (keep I I' H same) (hs.same fun l hl => same l (hE0 (hA l hl))) ?_)
      rw [Vars.known_set]; exact h3
  | setup s n ok threw ih1 ih2 =>
    rintro σ w shape I H hs ⟨k, o, h1, h2, h3, h4⟩
    obtain ⟨v, e, hv⟩ : ∃ v, σ s = some v ∧ (v.kind, v.len) = (k, o) := Option.map_eq_some_iff.1 h1
    obtain ⟨k', ob, len⟩ := v
    cases hv
    have hfr : E ⊆ w.live \ {b | b ∈ oblocks (σ s)} := fun b hb => ⟨(I.live b).2 (Or.inl hb), fun h => I.out s b h hb⟩
    have ow : Owned ∅ ((k'.spec C thr).blocks ob) (w.only {b | b ∈ oblocks (σ s)}) := by
      have := I.only s
      rw [e] at this ⊢
      exact this
    have hrun : (Client.setup s n ok threw).run sh σ = (do
      let r ← (k'.cls C thr).setup ob n
      if r.2 then threw.run sh (σ.set s (some ⟨k', r.1, none⟩))
      else ok.run sh (σ.set s (some ⟨k', r.1, some n.toNat⟩))) := by
      simp only [Client.run, e]
    rw [hrun]
    refine Act.wpC_seq (Act.wp_frame hfr hS ((k'.spec C thr).setup_spec ob n (Kind.spec_setup thr k' n h2) ow)
      (World.only_join I.wf (I.sub s))) ?_
    rintro ⟨o', t⟩ w' ⟨w1, ⟨ho, -, hr⟩, j⟩
    cases t with
    | true =>
      obtain ⟨I', same⟩ := I.replace s (some ⟨k', o', none⟩) j ho (by rintro _ ⟨⟩ m ⟨⟩)
      refine after I I' H hs same (ih2 _ w' shape I' (keep I I' H same) (hs.same fun l hl => same l (hE0 (hA l hl))) ?_)
      rw [Vars.known_set]; exact h4
    | false =>
      obtain ⟨I', same⟩ := I.replace s (some ⟨k', o', some n.toNat⟩) j ho (by rintro _ ⟨⟩ m ⟨⟩; exact hr rfl)
      refine after I I' H hs same (ih1 _ w' shape I' (keep I I' H same) (hs.same fun l hl => same l (hE0 (hA l hl))) ?_)
      rw [Vars.known_set]; exact h3
  | call s k c next ih =>
    rintro σ w shape I H hs ⟨n, h1, h2, h3, h4, h5⟩
    obtain ⟨v, e, hv⟩ : ∃ v, σ s = some v ∧ (v.kind, v.len) = (k, some n) := Option.map_eq_some_iff.1 h1
    obtain ⟨k', ob, len⟩ := v
    cases hv
    obtain ⟨h', g, -, hs', I'⟩ := I.call hE0 hA hs e h2 h3 h4 Set.subset_union_left
    have g := g.mono (Set.subset_univ _) (Set.union_subset_union_left _ h4)
    have hrun : (Client.call s k' c next).run sh σ = (do
      Act.exec ((k'.cls C thr).call ob c)
      next.run sh σ) := by
      simp only [Client.run, e, Slot.call_same]
    rw [hrun]
    refine Act.wpC_seq (Act.wpC_exec (Q := fun _ w' => w' = ⟨h', w.live⟩) g ?_ rfl) ?_
    · rintro l (h | h) hl
      · exact hSP l h hl
      · exact I.out s l.1 h.2 (hS l hl)
    · rintro _ _ rfl
      refine after' I I' H g ?_ (ih σ _ _ I' ?_ hs' h5)
      · rintro l hl (h | h)
        · exact h
        · exact absurd hl (I.out s l.1 h.2)
      · exact H.keep I.wf I'.wf fun l hl hl0 => g.out l (by
          rintro (h | h)
          · exact hl0 (hA l (Or.inl h))
          · exact I.out s l.1 h.2 hl)
  | shared s k c next ih =>
    rintro σ w shape I H hs ⟨n, h1, hk, h2, h3, h4, h5⟩
    obtain ⟨v, e, hv⟩ : ∃ v, sh s = some v ∧ (v.kind, v.len) = (k, some n) := Option.map_eq_some_iff.1 h1
    obtain ⟨k', ob, len⟩ := v
    cases hv
    obtain ⟨h', g, -, hs', I'⟩ := I.callShared H hE0 hA hs e hk h2 h3 h4 Set.subset_union_left
    have g := g.mono (Set.subset_univ _) h4
    have hrun : (Client.shared s k' c next).run sh σ = (do
      Act.exec ((k'.cls C thr).call ob c)
      next.run sh σ) := by
      simp only [Client.run, e, Slot.call_same]
    rw [hrun]
    refine Act.wpC_seq (Act.wpC_exec (Q := fun _ w' => w' = ⟨h', w.live⟩) g hSP rfl) ?_
    rintro _ _ rfl
    refine after' I I' H g (fun l _ h => h) (ih σ _ _ I' ?_ hs' h5)
    exact H.keep I.wf I'.wf fun l hl hl0 => g.out l fun h => hl0 (hA l (Or.inl h))
  | delete s next ih =>
    intro σ w shape I H hs ok
    cases e : σ s with
    | none =>
      have hrun : (Client.delete s next).run sh σ = next.run sh σ := by simp only [Client.run, e]
      have ok : next.OK P Rd sh.known (σ.known.set s none) shape := ok
      have e' : σ.known.set s none = σ.known := by
        funext t
        by_cases ht : t = s
        · subst ht; simp [Known.set, Vars.known, e]
        · simp [Known.set, ht]
      rw [e'] at ok
      rw [hrun]
      exact ih σ w shape I H hs ok
    | some v =>
      have hrun : (Client.delete s next).run sh σ = (do
        (v.kind.cls C thr).destroy v.obj
        next.run sh (σ.set s none)) := by simp only [Client.run, e]
      rw [hrun]
      have hfr : E ⊆ w.live \ {b | b ∈ oblocks (σ s)} := fun b hb => ⟨(I.live b).2 (Or.inl hb), fun h => I.out s b h hb⟩
      have ow : Owned ∅ ((v.kind.spec C thr).blocks v.obj) (w.only {b | b ∈ oblocks (σ s)}) := by
        have := I.only s
        rw [e] at this ⊢
        exact this
      refine Act.wpC_seq (Act.wp_frame hfr hS ((v.kind.spec C thr).destroy_spec v.obj ow)
        (World.only_join I.wf (I.sub s))) ?_
      rintro _ w' ⟨w1, ⟨ho, -⟩, j⟩
      obtain ⟨I', same⟩ := I.replace s none j ho (by simp)
      refine after I I' H hs same (ih _ w' shape I' (keep I I' H same) (hs.same fun l hl => same l (hE0 (hA l hl))) ?_)
      rw [Vars.known_set]; exact ok
  | store p v next ih =>
    rintro σ w shape I H hs ⟨h1, h2, h3⟩
    have g : Good Set.univ {p.loc} [[.store p.loc v (.ret ())]] w.heap (w.heap.set p.loc v) :=
      Good.store v ((hs _ (Or.inl h1)).1 h2)
    have I' := I.ran g fun l h => Or.inl (hE0 (hA l (Or.inl (by rw [Set.mem_singleton_iff.1 h]; exact h1))))
    refine Act.wpC_seq (m := Act.exec [[.store p.loc v (.ret ())]])
      (Act.wpC_exec (Q := fun _ w' => w' = ⟨w.heap.set p.loc v, w.live⟩) g (fun l h => by
        rw [Set.mem_singleton_iff.1 h]; exact hSP _ h1) rfl) ?_
    rintro _ _ rfl
    refine after' I I' H g (fun l _ h => by rw [Set.mem_singleton_iff.1 h]; exact h1) (ih σ _ _ I' ?_ ?_ h3)
    · exact H.keep I.wf I'.wf fun l hl hl0 => g.out l fun h => hl0 (hA l (Or.inl (by
        rw [Set.mem_singleton_iff.1 h]; exact h1)))
    · intro l hl
      by_cases el : l = p.loc
      · subst el
        show (Heap.set _ _ _ _ ≠ none → Heap.set _ _ _ _ ≠ none) ∧ _
        simp only [Heap.set_same]
        exact ⟨id, id⟩
      · show (Heap.set _ _ _ _ ≠ none → Heap.set _ _ _ _ ≠ none) ∧ ((∃ v, Heap.set _ _ _ _ = _) → ∃ v, Heap.set _ _ _ _ = _)
        simp only [Heap.set_ne _ _ el]
        exact hs l hl

end OTFFT
