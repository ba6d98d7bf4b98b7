/-
C33: several threads. All theorems hold for any arithmetic.
-/
import Verif.Proof.Race
import Verif.Props.Pool

namespace OTFFT.Props
open OTFFT

variable {F C : Type} [DArith F] [CArith F C] [Inhabited C] {thr : Thr}

/-- C33: after some client program has made objects, threads are started; each works on arrays and objects of its own,
or calls `RealFFT`, `FFT0` or `DCT0` objects that all threads share. Under every interleaving of the threads (and of the
OpenMP teams inside them), whatever `malloc` does: no undefined behaviour, in particular no data race; all threads end;
then

* the memory of the client is still allocated, and unchanged where no thread may write;
* every thread has got the objects, and has left in its arrays the values, that it gets and leaves when it runs alone
  (in the part of the memory that does not belong to objects other threads took over: in all of it if no thread takes
  over any object);
* if no thread keeps an object and none is left, exactly the memory of the client is allocated;
* the starting thread can go on with the objects that are left: any program that respects the preconditions has no
  undefined behaviour, and if it ends up with all objects deleted exactly the memory of the client is allocated. -/
theorem C33_threads {w0 w : World C} {σ : Vars C thr} {Rd : Set Loc} {js : List (Job C thr)} (h : AfterClient w0 σ w)
    (f : ForkOK w0 σ w Rd js) :
    Process.All (fun σs w' =>
      (w'.WF ∧ w0.live ⊆ w'.live ∧ ∀ l : Loc, l.1 ∈ w0.live → (∀ j ∈ js, l ∉ j.P) → w'.heap l = w.heap l) ∧
      (∀ (i : ℕ) (j : Job C thr) (σ' : Vars C thr), js[i]? = some j → σs[i]? = some σ' →
        ∃ u u' : World C, u.Part w ∧ w0.live ⊆ u.live ∧ ((∀ k ∈ js, k.takes = ∅) → u = w) ∧
          (j.act σ js).Runs u σ' u' ∧ ∀ l ∈ j.P, w.heap l ≠ none → w'.heap l = u'.heap l) ∧
      ((∀ σ' ∈ σs, ∀ s, σ' s = none) → (∀ s, σ.left js s = none) → w'.live = w0.live) ∧
      ∀ (q : Client C thr) (P' Rd' : Set Loc), (∀ l ∈ P' ∪ Rd', l.1 ∈ w0.live) →
        q.OK P' Rd' (fun _ => none) (σ.left js).known w.heap →
        (q.run Vars.empty (σ.left js)).wp (fun σ'' w'' =>
          (∀ l : Loc, l.1 ∈ w0.live → l ∉ P' → w''.heap l = w'.heap l) ∧
          ((∀ σ' ∈ σs, ∀ s, σ' s = none) → (∀ s, σ'' s = none) → w''.live = w0.live)) w')
      (forked σ js w) := by
  have I := h.inv
  refine Process.All.monoLen (f.all I) ?_
  rintro σs w' - ⟨vs, l1, l2, V, G, Q⟩
  have hU := ForkOK.user (js := js) I
  -- the view at the end of every thread
  have getv : ∀ (i : ℕ) (j : Job C thr), js[i]? = some j → ∃ σ' v, σs[i]? = some σ' ∧ vs[i]? = some v := by
    intro i j hj
    obtain ⟨hi, -⟩ := List.getElem?_eq_some_iff.1 hj
    exact ⟨σs[i]'(by omega), vs[i]'(by omega), by simp, by simp⟩
  have getj : ∀ v ∈ vs, ∃ (i : ℕ) (j : Job C thr) (σ' : Vars C thr), js[i]? = some j ∧ σs[i]? = some σ' ∧ vs[i]? = some v := by
    intro v hv
    obtain ⟨i, hi⟩ := List.mem_iff_getElem?.1 hv
    obtain ⟨hl, -⟩ := List.getElem?_eq_some_iff.1 hi
    exact ⟨i, js[i]'(by omega), σs[i]'(by omega), by simp, by simp, hi⟩
  have hle : ∀ v ∈ vs, v.heap.Le w'.heap := fun v hv => V.heap _ (List.mem_map.2 ⟨v, hv, rfl⟩)
  -- cells of the client nobody may write
  have same : ∀ l : Loc, l.1 ∈ forkB σ js w → (∀ j ∈ js, l ∉ j.P) → w'.heap l = w.heap l := fun l hl hp =>
    G.same l hl (Or.inl ⟨hl, hp⟩)
  have own : ∀ (i : ℕ) (j : Job C thr) (v : World C), js[i]? = some j → vs[i]? = some v → ∀ l ∈ j.P, w.heap l ≠ none →
      v.heap l ≠ none ∧ w'.heap l = v.heap l := by
    intro i j v hj hv l hl hn
    obtain ⟨σ', v', hσ, hv'⟩ := getv i j hj
    rw [hv] at hv'; cases hv'
    have hm := List.mem_of_getElem? hj
    have hd := ((Q i j σ' v hj hσ hv).1.2.1 l (Or.inl hl)).1 (by rw [f.tells I hm l (Or.inl hl)]; exact hn)
    exact ⟨hd, hle v (List.mem_of_getElem? hv) l hd⟩
  have live : ∀ b, b ∈ w'.live → b ∈ forkB σ js w ∨ ∃ σ' ∈ σs, b ∈ σ'.blocks := by
    intro b hb
    rcases G.cover b hb with h | ⟨s, hs, hb⟩
    · exact Or.inl h
    · obtain ⟨v, hv, rfl⟩ := List.mem_map.1 hs
      obtain ⟨i, j, σ', hj, hσ, hv⟩ := getj v hv
      rcases ((Q i j σ' v hj hσ hv).1.1.live b).1 hb with h | h
      · exact Or.inl h
      · exact Or.inr ⟨σ', List.mem_of_getElem? hσ, h⟩
  have hB : ∀ b ∈ forkB σ js w, b ∈ w0.live ∨ b ∈ (σ.left js).blocks := by
    rintro b ⟨hb, hn⟩
    rcases (I.live b).1 hb with h | ⟨s, hs⟩
    · exact Or.inl h
    · refine Or.inr ⟨s, ?_⟩
      have : s ∈ {s | ∀ j ∈ js, s ∉ j.takes} := fun j hj hsj => hn j hj ⟨s, by rw [Vars.only_of hsj]; exact hs⟩
      show b ∈ oblocks (σ.only _ s)
      rw [Vars.only_of this]; exact hs
  refine ⟨⟨G.wf, hU.trans G.base, fun l hl hp => same l (hU hl) hp⟩, ?_, ?_, ?_⟩
  · intro i j σ' hj hσ
    obtain ⟨_, v, _, hv⟩ := getv i j hj
    have hm := List.mem_of_getElem? hj
    obtain ⟨-, u', hr, le⟩ := Q i j σ' v hj hσ hv
    have hsub : forkB σ js w ∪ (σ.only j.takes).blocks ⊆ w.live := by
      rintro b (hb | ⟨s, hb⟩)
      · exact hb.1
      · exact I.sub s (Vars.only_mem hb).2
    refine ⟨forkSolo σ js w j, u', ⟨hsub, fun l hl => Heap.restrict_of hl⟩, hU.trans Set.subset_union_left, ?_, hr, ?_⟩
    · intro ht
      have e : forkB σ js w ∪ (σ.only j.takes).blocks = w.live := by
        refine subset_antisymm hsub fun b hb => Or.inl ⟨hb, ?_⟩
        rintro k hk ⟨s, hs⟩
        have := (Vars.only_mem hs).1
        rw [ht k hk] at this
        exact this
      unfold forkSolo World.only
      rw [e]
      have : w.heap.restrict {l | l.1 ∈ w.live} = w.heap := by
        funext l
        by_cases hl : l.1 ∈ w.live
        · exact Heap.restrict_of hl
        · rw [Heap.restrict_not hl, I.wf.dead l hl]
      rw [this]
    · intro l hl hn
      obtain ⟨h1, h2⟩ := own i j v hj hv l hl hn
      rw [h2, le.heap l h1]
  · intro hσs hleft
    refine subset_antisymm (fun b hb => ?_) (hU.trans G.base)
    rcases live b hb with h | ⟨σ', hm, s, hs⟩
    · rcases hB b h with h | ⟨s, hs⟩
      · exact h
      · rw [hleft s] at hs; cases hs
    · rw [hσs σ' hm s] at hs; cases hs
  · intro q P' Rd' hc ok
    have J : PoolInv (w'.live \ (σ.left js).blocks) (σ.left js) w' := by
      have hb : (σ.left js).blocks ⊆ w'.live := fun b ⟨s, hs⟩ => G.base (forkB_blocks I hs).1
      have := I.part (E' := w'.live \ (σ.left js).blocks) {s | ∀ j ∈ js, s ∉ j.takes} (h := w'.heap)
        (fun h0 => G.wf.null h0.1) (fun b hb h => h.2 hb) (fun l h1 h2 => G.wf.dead l fun h => h1 ⟨h, h2⟩) ?_
      · have e : w'.live \ (σ.left js).blocks ∪ (σ.left js).blocks = w'.live := Set.sdiff_union_of_subset hb
        have this : PoolInv (w'.live \ (σ.left js).blocks) (σ.left js)
          ⟨w'.heap, w'.live \ (σ.left js).blocks ∪ (σ.left js).blocks⟩ := this
        rw [e] at this
        exact this
      · rintro l ⟨s, hs⟩
        have := forkB_blocks (js := js) I hs
        exact same l this.1 fun j hj hl => this.2 (f.cells j hj l (Or.inl hl))
    have hE : w0.live ⊆ w'.live \ (σ.left js).blocks := fun b hb => ⟨G.base (hU hb), fun ⟨s, hs⟩ => (forkB_blocks I hs).2 hb⟩
    have ht : Tells (P' ∪ Rd') w.heap w'.heap := by
      intro l hl
      by_cases hp : ∀ j ∈ js, l ∉ j.P
      · rw [same l (hU (hc l hl)) hp]; exact ⟨id, id⟩
      · push Not at hp
        obtain ⟨j, hj, hp⟩ := hp
        obtain ⟨i, hj⟩ := List.mem_iff_getElem?.1 hj
        obtain ⟨σ', v, hσ, hv⟩ := getv i j hj
        have := (Q i j σ' v hj hσ hv).1.2.1 l (Or.inl hp)
        rw [f.tells I (List.mem_of_getElem? hj) l (Or.inl hp)] at this
        refine ⟨fun hn => ?_, fun ⟨u, hu⟩ => ?_⟩
        · obtain ⟨h1, h2⟩ := own i j v hj hv l hp hn
          rw [h2]; exact h1
        · obtain ⟨h1, h2⟩ := own i j v hj hv l hp (by rw [hu]; simp)
          rw [h2]; exact this.2 ⟨u, hu⟩
    refine Act.wp_mono (Act.wpC_wp (Client.run_spec (S := ∅) hE hc (fun _ h => h.elim) (fun _ _ h => h) q _ w' w.heap J
      (SharedInv.none _ _ _) ht ok)) ?_
    rintro σ'' w'' ⟨K, -, fr⟩
    refine ⟨fun l hl hp => fr l (hE hl) hp, fun hσs hσ'' => ?_⟩
    refine subset_antisymm (fun b hb => ?_) (fun b hb => (K.live b).2 (Or.inl (hE hb)))
    rcases (K.live b).1 hb with h | ⟨s, hs⟩
    · rcases live b h.1 with h' | ⟨σ', hm, s, hs⟩
      · exact (hB b h').resolve_right h.2
      · rw [hσs σ' hm s] at hs; cases hs
    · rw [hσ'' s] at hs; cases hs

/-- C33: two threads call the same `ComplexFFT`, `RealDCT` or Bluestein object at the same time: even if their arrays
do not overlap and both calls respect all other preconditions there is an interleaving with a data race, in the work
area of the object. (`ForkOK` forbids this; lengths for which no work area is needed are excepted.) -/
theorem C33_race {w0 w : World C} {σ : Vars C thr} {js : List (Job C thr)} (h : AfterClient w0 σ w)
    {i j : ℕ} (hij : i ≠ j) {a b : Job C thr} (ha : js[i]? = some a) (hb : js[j]? = some b) {s : ℕ} {k : Kind} {n : ℕ}
    {o : (k.cls C thr).Obj} {c d : (k.cls C thr).Call} {p q : Client C thr} (pa : a.prog = .shared s k c p)
    (pb : b.prog = .shared s k d q) (hs : σ.left js s = some ⟨k, o, some n⟩) (hu : k.usesWork n)
    (oc : k.callOK n c w.heap) (od : k.callOK n d w.heap) (uc : ∀ l ∈ k.arrays n c, l.1 ∈ w0.live)
    (ud : ∀ l ∈ k.arrays n d, l.1 ∈ w0.live) (dj : Disjoint (k.arrays n c) (k.arrays n d)) :
    (forked σ js w).CanUB :=
  fork_race h.inv hij ha hb pa pb hs hu oc od uc ud dj

/-! ### The hypotheses are met -/

/-- one object is made -/
def oneClient (C : Type) [CArith F C] (thr : Thr) (k : Kind) : Client C thr := .new 0 k 12 .done .done

theorem oneClient_valid (k : Kind) {w0 : World C} (wf : w0.WF) : (oneClient C thr k).Valid ∅ ∅ w0 := by
  refine ⟨wf, fun l h => ?_, rfl, ?_, trivial, trivial⟩
  · rcases h with h | h <;> exact h.elim
  · cases k <;> first | exact ⟨by omega, by omega⟩ | exact (by omega : (12 : ℤ) ≤ 2 ^ 29)

/-- it may succeed -/
theorem oneClient_runs (k : Kind) {w0 : World C} (wf : w0.WF) (fin : w0.live.Finite) : ∃ (σ : Vars C thr) (w : World C)
    (o : (k.cls C thr).Obj), AfterClient w0 σ w ∧ σ 0 = some ⟨k, o, some 12⟩ ∧ ∀ l : Loc, l.1 ∈ w0.live → w.heap l = w0.heap l := by
  have hv := oneClient_valid (C := C) (thr := thr) k wf
  obtain ⟨σ, w, hr, hk, -, -, hq, -⟩ := Act.wp_exists_ok (C41_safe hv).1 ((C41_safe hv).2 (by simp [oneClient, Client.lenNat])) fin
  have h0 : σ.known 0 = some (k, some 12) := by rw [hk]; rfl
  obtain ⟨⟨k0, o0, l0⟩, e0, hv0⟩ : ∃ v, σ 0 = some v ∧ (v.kind, v.len) = (k, some 12) := Option.map_eq_some_iff.1 h0
  cases hv0
  exact ⟨σ, w, o0, ⟨_, _, _, hv, hr⟩, e0, fun l hl => hq l hl id⟩

/-- Two threads share a `RealFFT` object of length 12: both transform block 1, one into block 2, the other into block 3;
the second then makes a `ComplexFFT` object for the inverse transform of block 3. -/
def twoJobs (C : Type) [CArith F C] (thr : Thr) : List (Job C thr) :=
  [⟨.shared 0 .real (Entry.fwd0, Ptr.base 1, Ptr.base 2) .done, {l | l.1 = 2}, ∅⟩,
   ⟨.shared 0 .real (Entry.fwd0, Ptr.base 1, Ptr.base 3)
      (.new 0 .complex 12 (.call 0 .complex (Entry.inv, Ptr.base 3) (.delete 0 .done)) .done), {l | l.1 = 3}, ∅⟩]

example (v : ℕ → C) : ∃ (σ : Vars C thr) (w : World C), AfterClient (withWork 12 v) σ w ∧
    ForkOK (withWork 12 v) σ w {l | l.1 = 1} (twoJobs C thr) := by
  obtain ⟨h1, h2, h3⟩ := withWork_ok 12 v
  obtain ⟨σ, w, o, ha, e0, hs⟩ := oneClient_runs (C := C) (thr := thr) .real h1.wf (by simp [withWork])
  have hl : RealLen 12 := Or.inr ⟨6, rfl, validLen_of_le (by omega) (by omega), by omega⟩
  have same : ∀ {p : Ptr} {i : ℕ}, p.buf = 1 ∨ p.buf = 2 ∨ p.buf = 3 → w.heap (p + i).loc = (withWork 12 v).heap (p + i).loc := by
    intro p i hp
    refine hs _ ?_
    show p.buf ∈ ({1, 2, 3} : Set ℕ)
    rcases hp with h | h | h <;> simp [h]
  have f1 : Filled w.heap (Ptr.base 1) 12 := fun i hi => by
    obtain ⟨u, hu⟩ := h1.arr.filled i hi
    exact ⟨u, (same (Or.inl rfl)).trans hu⟩
  have a2 : Alloc w.heap (Ptr.base 2) 12 := fun i hi => by rw [same (Or.inr (Or.inl rfl))]; exact h2 i hi
  have a3 : Alloc w.heap (Ptr.base 3) 12 := fun i hi => by rw [same (Or.inr (Or.inr rfl))]; exact h3 i hi
  have left : (σ.left (twoJobs C thr)).known 0 = some (.real, some 12) := by
    have : (0 : ℕ) ∈ {s | ∀ j ∈ twoJobs C thr, s ∉ j.takes} := by
      intro j hj
      simp only [twoJobs, List.mem_cons, List.not_mem_nil, or_false] at hj
      rcases hj with rfl | rfl <;> exact id
    show ((σ.only _ 0).map fun v : Slot C thr => (v.kind, v.len)) = _
    rw [Vars.only_of this, e0]
    rfl
  have none : ∀ s, (σ.only ∅).known s = none := fun s => by
    show ((σ.only _ s).map fun v : Slot C thr => (v.kind, v.len)) = _
    rw [Vars.only_not (fun h : s ∈ (∅ : Set ℕ) => h.elim)]
    rfl
  have r : ∀ b n, Region (Ptr.base b) n ⊆ {l : Loc | l.1 = b} := fun b n l h => region_buf h
  refine ⟨σ, w, ha, ?_, ?_, ?_, ?_, ?_⟩
  · intro j hj l hl
    simp only [twoJobs, List.mem_cons, List.not_mem_nil, or_false] at hj
    show l.1 ∈ ({1, 2, 3} : Set ℕ)
    rcases hj with rfl | rfl <;> rcases hl with h | h <;> simp_all
  · intro j hj
    simp only [twoJobs, List.mem_cons, List.not_mem_nil, or_false] at hj
    refine Set.disjoint_left.2 fun l h1 h2 => ?_
    rcases hj with rfl | rfl <;> simp_all
  · intro i k a b hik ha hb
    refine Set.disjoint_left.2 fun l h1 h2 => ?_
    have hi : i < 2 := (List.getElem?_eq_some_iff.1 ha).1
    have hk : k < 2 := (List.getElem?_eq_some_iff.1 hb).1
    interval_cases i <;> interval_cases k <;> simp_all [twoJobs] <;> subst ha hb <;> simp_all
  · intro i k a b hik ha hb
    have hi : i < 2 := (List.getElem?_eq_some_iff.1 ha).1
    have : a.takes = ∅ := by interval_cases i <;> simp [twoJobs] at ha <;> subst ha <;> rfl
    rw [this]; exact Set.empty_disjoint _
  · intro j hj
    simp only [twoJobs, List.mem_cons, List.not_mem_nil, or_false] at hj
    rcases hj with rfl | rfl
    · refine ⟨12, left, rfl, ⟨hl, f1, f1.alloc', a2, Sep.of_buf (by simp [Ptr.base]) _ _⟩, ?_, r 2 12, trivial⟩
      exact Set.union_subset ((r 1 12).trans Set.subset_union_right) ((r 2 12).trans Set.subset_union_left)
    · refine ⟨12, left, rfl, ⟨hl, f1, f1.alloc', a3, Sep.of_buf (by simp [Ptr.base]) _ _⟩, ?_, r 3 12, none 0, ⟨by omega, by omega⟩,
        ⟨12, rfl, ⟨validLen_of_le (by omega) (by omega), fun i hi => ⟨default, if_pos ⟨i, hi, rfl⟩⟩⟩,
          (r 3 12).trans Set.subset_union_left, r 3 12, trivial⟩, trivial⟩
      exact Set.union_subset ((r 1 12).trans Set.subset_union_right) ((r 3 12).trans Set.subset_union_left)

/-- two threads that use one `ComplexFFT` object of length 12 for arrays of their own may race -/
example (v : ℕ → C) : ∃ (σ : Vars C thr) (w : World C), AfterClient (twoArrays 12 v) σ w ∧
    (forked σ [⟨.shared 0 .complex (Entry.fwd, Ptr.base 1) .done, {l | l.1 = 1}, ∅⟩,
      ⟨.shared 0 .complex (Entry.inv, Ptr.base 2) .done, {l | l.1 = 2}, ∅⟩] w).CanUB := by
  have h1 := twoArrays_ok 12 v
  obtain ⟨σ, w, o, ha, e0, hs⟩ := oneClient_runs (C := C) (thr := thr) .complex h1.wf (by simp [twoArrays])
  have f : ∀ b, b = 1 ∨ b = 2 → Filled w.heap (Ptr.base b) 12 := fun b hb i hi => by
    refine ⟨v i, (hs _ ?_).trans ?_⟩
    · show b ∈ ({1, 2} : Set ℕ)
      rcases hb with h | h <;> simp [h]
    · rcases hb with rfl | rfl <;> simp [twoArrays, Ptr.base, Ptr.loc, hi]
  have hl : ValidLen 12 := validLen_of_le (by omega) (by omega)
  refine ⟨σ, w, ha, ?_⟩
  refine C33_race (k := .complex) (n := 12) (o := o) ha (i := 0) (j := 1) (by omega) rfl rfl rfl rfl ?_ (by simp [Kind.usesWork])
    ⟨hl, f 1 (by simp)⟩ ⟨hl, f 2 (by simp)⟩ ?_ ?_ ?_
  · unfold Vars.left
    rw [Vars.only_of ?_]
    · exact e0
    · intro j hj
      simp only [List.mem_cons, List.not_mem_nil, or_false] at hj
      rcases hj with rfl | rfl <;> exact id
  · intro l h
    have := region_buf h
    show l.1 ∈ ({1, 2} : Set ℕ)
    rw [this]; simp [Ptr.base]
  · intro l h
    have := region_buf h
    show l.1 ∈ ({1, 2} : Set ℕ)
    rw [this]; simp [Ptr.base]
  · refine Set.disjoint_left.2 fun l h h' => ?_
    have h := region_buf h
    have h' := region_buf h'
    rw [h] at h'
    simp [Ptr.base] at h'

end OTFFT.Props
