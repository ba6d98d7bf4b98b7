/-
Threads that use objects made by the thread that started them.
-/
import Verif.Props.Pool
import Verif.Spec.Fork

namespace OTFFT

variable {F C : Type} [DArith F] [CArith F C] [Inhabited C] {thr : Thr}

theorem Vars.only_of {σ : Vars C thr} {V : Set Nat} {s : Nat} (h : s ∈ V) : σ.only V s = σ s := by simp [Vars.only, h]
theorem Vars.only_not {σ : Vars C thr} {V : Set Nat} {s : Nat} (h : s ∉ V) : σ.only V s = none := by simp [Vars.only, h]
theorem Vars.only_some {σ : Vars C thr} {V : Set Nat} {s : Nat} {v : Slot C thr} (h : σ.only V s = some v) : s ∈ V ∧ σ s = some v := by
  by_cases hs : s ∈ V
  · rw [Vars.only_of hs] at h; exact ⟨hs, h⟩
  · rw [Vars.only_not hs] at h; cases h
theorem Vars.only_mem {σ : Vars C thr} {V : Set Nat} {s b : Nat} (h : b ∈ oblocks (σ.only V s)) : s ∈ V ∧ b ∈ oblocks (σ s) := by
  by_cases hs : s ∈ V
  · rw [Vars.only_of hs] at h; exact ⟨hs, h⟩
  · rw [Vars.only_not hs] at h; cases h

/-- all blocks of the objects in the variables -/
def Vars.blocks (σ : Vars C thr) : Set Nat := {b | ∃ s, b ∈ oblocks (σ s)}

/-- part of the objects, in a part of the memory -/
theorem PoolInv.part {E E' : Set Nat} {σ : Vars C thr} {w : World C} (I : PoolInv E σ w) (V : Set Nat) {h : Heap C}
    (hE' : 0 ∉ E') (hd : ∀ b ∈ (σ.only V).blocks, b ∉ E')
    (hn : ∀ l : Loc, l.1 ∉ E' → l.1 ∉ (σ.only V).blocks → h l = none)
    (hs : ∀ l : Loc, l.1 ∈ (σ.only V).blocks → h l = w.heap l) :
    PoolInv E' (σ.only V) ⟨h, E' ∪ (σ.only V).blocks⟩ where
  wf := ⟨by
      rintro (h0 | ⟨s, h0⟩)
      · exact hE' h0
      · exact I.wf.null (I.sub s (Vars.only_mem h0).2), fun l hl => hn l (fun h => hl (Or.inl h)) (fun h => hl (Or.inr h))⟩
  live b := Iff.rfl
  nodup s := by
    by_cases hs : s ∈ V
    · rw [Vars.only_of hs]; exact I.nodup s
    · rw [Vars.only_not hs]; exact List.nodup_nil
  out s b hb := hd b ⟨s, hb⟩
  disj s t hst b hb hb' := I.disj s t hst b (Vars.only_mem hb).2 (Vars.only_mem hb').2
  ready s v hv := by
    have hv' := (Vars.only_some hv).2
    refine (I.ready s v hv').frame fun l hl => ?_
    rcases hl with hl | hl
    · have h1 : w.heap l = none := I.wf.dead l (hl ▸ I.wf.null)
      rw [h1]
      refine hn l (fun h => hE' (hl ▸ h)) ?_
      rintro ⟨s, h⟩
      exact I.wf.null (hl ▸ I.sub s (Vars.only_mem h).2)
    · exact hs l ⟨s, by rw [hv]; exact hl⟩

section
variable {w0 w : World C} {σ : Vars C thr} {Rd : Set Loc} {js : List (Job C thr)}

/-- blocks nobody frees -/
def forkB (σ : Vars C thr) (js : List (Job C thr)) (w : World C) : Set Nat :=
  {b | b ∈ w.live ∧ ∀ j ∈ js, b ∉ (σ.only j.takes).blocks}

/-- cells nobody writes -/
def forkS (σ : Vars C thr) (js : List (Job C thr)) (w : World C) : Set Loc :=
  {l | l.1 ∈ forkB σ js w ∧ ∀ j ∈ js, l ∉ j.P}

/-- what a thread sees -/
noncomputable def forkView (σ : Vars C thr) (js : List (Job C thr)) (w : World C) (j : Job C thr) : World C :=
  ⟨w.heap.restrict {l | l.1 ∈ (σ.only j.takes).blocks ∨ l ∈ j.P ∨ l ∈ forkS σ js w}, forkB σ js w ∪ (σ.only j.takes).blocks⟩

theorem ForkOK.user (I : PoolInv w0.live σ w) : w0.live ⊆ forkB σ js w := fun b hb =>
  ⟨(I.live b).2 (Or.inl hb), fun _ _ ⟨s, h⟩ => I.out s b (Vars.only_mem h).2 hb⟩

theorem forkB_blocks (I : PoolInv w0.live σ w) {s b : Nat} (h : b ∈ oblocks (σ.left js s)) : b ∈ forkB σ js w ∧ b ∉ w0.live := by
  obtain ⟨hs, hb⟩ := Vars.only_mem h
  refine ⟨⟨I.sub s hb, ?_⟩, I.out s b hb⟩
  rintro j hj ⟨t, ht⟩
  obtain ⟨ht, hb'⟩ := Vars.only_mem ht
  by_cases e : s = t
  · subst e; exact hs j hj ht
  · exact I.disj s t e b hb hb'

theorem forkB_disj {j : Job C thr} (hj : j ∈ js) {b : Nat} (hb : b ∈ (σ.only j.takes).blocks) : b ∉ forkB σ js w :=
  fun h => h.2 j hj hb

theorem forkDisj (f : ForkOK w0 σ w Rd js) (I : PoolInv w0.live σ w) {i k : Nat} {a b : Job C thr} (hik : i ≠ k)
    (ha : js[i]? = some a) (hb : js[k]? = some b) {c d : Nat} (hc : c ∈ (σ.only a.takes).blocks)
    (hd : d ∈ (σ.only b.takes).blocks) : c ≠ d := by
  rintro rfl
  obtain ⟨s, hs⟩ := hc
  obtain ⟨t, ht⟩ := hd
  obtain ⟨hs, hc⟩ := Vars.only_mem hs
  obtain ⟨ht, hd⟩ := Vars.only_mem ht
  refine I.disj s t ?_ c hc hd
  rintro rfl
  exact Set.disjoint_left.1 (f.takes i k a b hik ha hb) hs ht

theorem ForkOK.inv (f : ForkOK w0 σ w Rd js) (I : PoolInv w0.live σ w) {j : Job C thr} (hj : j ∈ js) :
    PoolInv (forkB σ js w) (σ.only j.takes) (forkView σ js w j) := by
  refine I.part j.takes (fun hb => I.wf.null hb.1) (fun b hb => forkB_disj hj hb) ?_ ?_
  · intro l h1 h2
    refine Heap.restrict_not ?_
    rintro (h | h | h)
    · exact h2 h
    · exact h1 (ForkOK.user I (f.cells j hj l (Or.inl h)))
    · exact h1 h.1
  · intro l hl
    exact Heap.restrict_of (Or.inl hl)

theorem ForkOK.shared (f : ForkOK w0 σ w Rd js) (I : PoolInv w0.live σ w) {j : Job C thr} (hj : j ∈ js) :
    SharedInv (σ.left js) w0.live (forkB σ js w) (forkView σ js w j).heap := by
  refine ⟨fun s v hv _ => ?_, fun s v hv _ b hb => ?_, fun s v hv _ => ?_⟩
  · have := I.nodup s
    rw [(Vars.only_some hv).2] at this
    exact this
  · exact forkB_blocks I (s := s) (by rw [hv]; exact hb)
  · refine (I.ready s v (Vars.only_some hv).2).frame fun l hl => ?_
    rcases hl with hl | hl
    · have h1 : w.heap l = none := I.wf.dead l (hl ▸ I.wf.null)
      rw [h1]
      exact (f.inv I hj).wf.dead l (hl ▸ (f.inv I hj).wf.null)
    · have := forkB_blocks (js := js) I (s := s) (b := l.1) (by rw [hv]; exact hl)
      exact Heap.restrict_of (Or.inr (Or.inr ⟨this.1, fun k hk h => this.2 (f.cells k hk l (Or.inl h))⟩))

theorem ForkOK.tells (f : ForkOK w0 σ w Rd js) (I : PoolInv w0.live σ w) {j : Job C thr} (hj : j ∈ js) :
    ∀ l ∈ j.P ∪ Rd, (forkView σ js w j).heap l = w.heap l := by
  rintro l (h | h)
  · exact Heap.restrict_of (Or.inr (Or.inl h))
  · exact Heap.restrict_of (Or.inr (Or.inr ⟨ForkOK.user I (f.cells j hj l (Or.inr h)),
      fun k hk h' => Set.disjoint_left.1 (f.read k hk) h' h⟩))

/-- the memory without the objects other threads take over -/
noncomputable def forkSolo (σ : Vars C thr) (js : List (Job C thr)) (w : World C) (j : Job C thr) : World C :=
  w.only (forkB σ js w ∪ (σ.only j.takes).blocks)

theorem ForkOK.le (f : ForkOK w0 σ w Rd js) (I : PoolInv w0.live σ w) {j : Job C thr} (hj : j ∈ js) :
    (forkView σ js w j).Le (forkSolo σ js w j) := by
  refine ⟨rfl, fun l hl => ?_⟩
  have hm := Heap.restrict_mem hl
  rw [show (forkView σ js w j).heap l = w.heap l from Heap.restrict_of hm]
  refine Heap.restrict_of ?_
  rcases hm with h | h | h
  · exact Or.inr h
  · exact Or.inl (ForkOK.user I (f.cells j hj l (Or.inl h)))
  · exact Or.inl h.1

theorem ForkOK.run (f : ForkOK w0 σ w Rd js) (I : PoolInv w0.live σ w) {j : Job C thr} (hj : j ∈ js) :
    (j.act σ js).wpC (forkS σ js w) (forkB σ js w) (fun σ' v => (PoolInv (forkB σ js w) σ' v ∧
      Tells (j.P ∪ Rd) (forkView σ js w j).heap v.heap ∧
      ∀ l : Loc, l.1 ∈ forkB σ js w → l ∉ j.P → v.heap l = (forkView σ js w j).heap l) ∧
      ∃ u', (j.act σ js).Runs (forkSolo σ js w j) σ' u' ∧ v.Le u') (forkView σ js w j) := by
  refine Act.wpC_record ?_ (f.le I hj)
  refine Client.run_spec (E0 := w0.live) (ForkOK.user I) (f.cells j hj) (fun l hl => hl.1) (fun l hl hs => hs.2 j hj hl)
    j.prog _ _ w.heap (f.inv I hj) (f.shared I hj) ?_ (f.ok j hj)
  exact (Tells.refl _ _).same (f.tells I hj)

omit [DArith F] [CArith F C] [Inhabited C] in
theorem Process.All.monoLen {α : Type} {Q Q' : List α → World C → Prop} {s : Process C α} (a : Process.All Q s)
    (h : ∀ as w, as.length = s.threads.length → Q as w → Q' as w) : Process.All Q' s := by
  induction a with
  | @intro s nu post lv next ih =>
    refine .intro nu (fun as he => h as _ he.1.symm (post as he)) lv fun s' st => ih s' st fun as w hl => h as w ?_
    cases st with
    | thread i hi st => simpa using hl

omit [DArith F] [CArith F C] [Inhabited C] in
theorem getElem?_mapView {α β : Type} {f : α → β} {js : List α} {i : Nat} {s : β} (h : (js.map f)[i]? = some s) :
    ∃ j, js[i]? = some j ∧ f j = s := by
  rw [List.getElem?_map] at h
  exact Option.map_eq_some_iff.1 h

/-- the postcondition of the threads -/
theorem ForkOK.all (f : ForkOK w0 σ w Rd js) (I : PoolInv w0.live σ w) :
    Process.All (fun σs w' => ∃ vs : List (World C), vs.length = σs.length ∧ σs.length = js.length ∧
        Views (forkS σ js w) (forkB σ js w) (vs.map fun v => ((⟨[], [], .ret ()⟩ : Thread C Unit), v)) w' ∧
        Frame (forkS σ js w) (forkB σ js w) (vs.map fun v => ((⟨[], [], .ret ()⟩ : Thread C Unit), v)) w w' ∧
        ∀ (i : Nat) (j : Job C thr) (σ' : Vars C thr) (v : World C), js[i]? = some j → σs[i]? = some σ' → vs[i]? = some v → (PoolInv (forkB σ js w) σ' v ∧
          Tells (j.P ∪ Rd) (forkView σ js w j).heap v.heap ∧
          ∀ l : Loc, l.1 ∈ forkB σ js w → l ∉ j.P → v.heap l = (forkView σ js w j).heap l) ∧
          ∃ u', (j.act σ js).Runs (forkSolo σ js w j) σ' u' ∧ v.Le u') (forked σ js w) := by
  have := Process.all_of_views (S := forkS σ js w) (B := forkB σ js w) (w0 := w)
    (Q := fun i σ' v => ∀ j, js[i]? = some j → (PoolInv (forkB σ js w) σ' v ∧
          Tells (j.P ∪ Rd) (forkView σ js w j).heap v.heap ∧
          ∀ l : Loc, l.1 ∈ forkB σ js w → l ∉ j.P → v.heap l = (forkView σ js w j).heap l) ∧
          ∃ u', (j.act σ js).Runs (forkSolo σ js w j) σ' u' ∧ v.Le u')
    (js.map fun j => (Thread.init (j.act σ js), forkView σ js w j)) w ?_ ?_ ?_
  · rw [List.map_map] at this
    refine Process.All.monoLen this ?_
    rintro σs w' hlen ⟨vs, h1, h2, h3, h4⟩
    refine ⟨vs, h1, ?_, h2, h3, fun i j σ' v hj hσ hv => h4 i σ' v hσ hv j hj⟩
    exact hlen.trans (by simp [forked])
  · refine ⟨?_, ?_, ?_, ?_, ?_⟩
    · intro s hs
      obtain ⟨j, hj, rfl⟩ := List.mem_map.1 hs
      exact Heap.restrict_le _ _
    · intro s hs
      obtain ⟨j, hj, rfl⟩ := List.mem_map.1 hs
      rintro b (hb | ⟨s, hb⟩)
      · exact hb.1
      · exact I.sub s (Vars.only_mem hb).2
    · intro s hs
      obtain ⟨j, hj, rfl⟩ := List.mem_map.1 hs
      exact (f.inv I hj).wf
    · intro i k s t hik hs ht l h1 h2
      obtain ⟨a, ha, rfl⟩ := getElem?_mapView hs
      obtain ⟨b, hb, rfl⟩ := getElem?_mapView ht
      have ma := List.mem_of_getElem? ha
      have mb := List.mem_of_getElem? hb
      rcases Heap.restrict_mem h1 with h1 | h1 | h1
      · rcases Heap.restrict_mem h2 with h2 | h2 | h2
        · exact absurd rfl (forkDisj f I hik ha hb h1 h2)
        · exact absurd (ForkOK.user I (f.cells b mb l (Or.inl h2))) (forkB_disj ma h1)
        · exact h2
      · rcases Heap.restrict_mem h2 with h2 | h2 | h2
        · exact absurd (ForkOK.user I (f.cells a ma l (Or.inl h1))) (forkB_disj mb h2)
        · exact absurd h2 (Set.disjoint_left.1 (f.write i k a b hik ha hb) h1)
        · exact h2
      · exact h1
    · intro i k s t hik hs ht b h1 h2
      obtain ⟨a, ha, rfl⟩ := getElem?_mapView hs
      obtain ⟨c, hc, rfl⟩ := getElem?_mapView ht
      rcases h1 with h1 | h1
      · exact h1
      · rcases h2 with h2 | h2
        · exact h2
        · exact absurd rfl (forkDisj f I hik ha hc h1 h2)
  · refine ⟨I.wf, fun b hb => hb.1, ?_, ?_, fun _ _ _ => rfl⟩
    · intro s hs
      obtain ⟨j, hj, rfl⟩ := List.mem_map.1 hs
      exact Set.subset_union_left
    · intro b hb
      by_cases h : ∀ j ∈ js, b ∉ (σ.only j.takes).blocks
      · exact Or.inl ⟨hb, h⟩
      · push Not at h
        obtain ⟨j, hj, h⟩ := h
        exact Or.inr ⟨_, List.mem_map.2 ⟨j, hj, rfl⟩, Or.inr h⟩
  · intro i s hs
    obtain ⟨j, hj, rfl⟩ := getElem?_mapView hs
    refine Thread.fine_idle _ _ _ (by simp) (Act.wpC_mono (f.run I (List.mem_of_getElem? hj)) ?_)
    intro σ' v h j' hj'
    rw [hj] at hj'
    cases hj'
    exact h

end
end OTFFT
