/-
Loops of gather/compute/scatter bodies: functional description of the heap they leave.
-/
import Verif.Proof.Sched
import Verif.Spec.Memory

namespace OTFFT

variable {C α ι : Type}

theorem Arr.alloc {h : Heap C} {p n v} (a : Arr h p n v) : Alloc h p n := by
  intro i hi; rw [a i hi]; simp

theorem Arr.congr {h : Heap C} {p n v w} (a : Arr h p n v) (e : ∀ i, i < n → v i = w i) :
    Arr h p n w := by intro i hi; rw [a i hi, e i hi]

theorem Arr.of_eq {h h' : Heap C} {p n v} (a : Arr h p n v)
    (e : ∀ l ∈ Region p n, h' l = h l) : Arr h' p n v := by
  intro i hi; rw [e _ ⟨i, hi, rfl⟩, a i hi]

theorem Alloc.of_eq {h h' : Heap C} {p n} (a : Alloc h p n)
    (e : ∀ l, h l ≠ none → h' l ≠ none) : Alloc h' p n := fun i hi => e _ (a i hi)

theorem mem_region {p : Ptr} {n i : Nat} (hi : i < n) : (p + i).loc ∈ Region p n := ⟨i, hi, rfl⟩

theorem mem_region' {p : Ptr} {n : Nat} {l : Loc} :
    l ∈ Region p n ↔ l.1 = p.buf ∧ p.off ≤ l.2 ∧ l.2 < p.off + n := by
  constructor
  · rintro ⟨i, hi, rfl⟩; simp; omega
  · rintro ⟨h1, h2, h3⟩
    refine ⟨l.2 - p.off, by omega, ?_⟩
    simp only [Ptr.loc_add]
    ext
    · exact h1
    · simp; omega

theorem region_disj {p q : Ptr} {n m : Nat} (h : p.buf ≠ q.buf) {l : Loc} (h1 : l ∈ Region p n) :
    l ∉ Region q m := by
  rw [mem_region'] at *
  rintro ⟨h2, _⟩
  exact h (by rw [← h1.1, h2])

/-- `h` with the cells in `S` overwritten by `tgt` -/
noncomputable def Heap.upd (h : Heap C) (S : Set Loc) (tgt : Loc → C) : Heap C :=
  open Classical in fun l => if l ∈ S then some (some (tgt l)) else h l

theorem Heap.upd_mem (h : Heap C) {S : Set Loc} {tgt : Loc → C} {l} (hl : l ∈ S) :
    h.upd S tgt l = some (some (tgt l)) := by simp [Heap.upd, hl]
theorem Heap.upd_not (h : Heap C) {S : Set Loc} {tgt : Loc → C} {l} (hl : l ∉ S) :
    h.upd S tgt l = h l := by simp [Heap.upd, hl]

section
variable {R D : Set Loc}

theorem tr_loadN {h h' : Heap C} {a : α} : ∀ (n : Nat) (p : Fin n → Ptr)
    (k : (Fin n → C) → Prog C α) (v : Fin n → C),
    (∀ i, (p i).loc ∈ R) → (∀ i, h (p i).loc = some (some (v i))) →
    Tr R D (k v) h a h' → Tr R D (loadN n p k) h a h' := by
  intro n
  induction n with
  | zero =>
    intro p k v _ _ t
    have : (Fin.elim0 : Fin 0 → C) = v := by funext i; exact i.elim0
    unfold loadN; rw [this]; exact t
  | succ n ih =>
    intro p k v hR hv t
    unfold loadN
    refine Tr.load (hR 0) (hv 0) ?_
    refine ih _ _ (fun i => v i.succ) (fun i => hR _) (fun i => hv _) ?_
    have : (fun i => Fin.cases (motive := fun _ => C) (v 0) (fun i => v i.succ) i) = v := by
      funext i; cases i using Fin.cases <;> rfl
    rw [this]; exact t

theorem tr_loadM {h h' : Heap C} {a : α} {L : Nat} : ∀ (n : Nat) (p : Fin n → Fin L → Ptr)
    (k : (Fin n → Fin L → C) → Prog C α) (v : Fin n → Fin L → C),
    (∀ i l, (p i l).loc ∈ R) → (∀ i l, h (p i l).loc = some (some (v i l))) →
    Tr R D (k v) h a h' → Tr R D (loadM L n p k) h a h' := by
  intro n
  induction n with
  | zero =>
    intro p k v _ _ t
    have : (Fin.elim0 : Fin 0 → Fin L → C) = v := by funext i; exact i.elim0
    unfold loadM; rw [this]; exact t
  | succ n ih =>
    intro p k v hR hv t
    unfold loadM
    refine tr_loadN _ _ _ (v 0) (hR 0) (hv 0) ?_
    refine ih _ _ (fun i => v i.succ) (fun i => hR _) (fun i => hv _) ?_
    have : (fun i => Fin.cases (motive := fun _ => Fin L → C) (v 0) (fun i => v i.succ) i) = v := by
      funext i; cases i using Fin.cases <;> rfl
    rw [this]; exact t

theorem tr_storeN {h' : Heap C} {a : α} {tgt : Loc → C} {k : Prog C α} :
    ∀ (n : Nat) (p : Fin n → Ptr) (v : Fin n → C) (h : Heap C),
    (∀ i, (p i).loc ∈ D) → (∀ i, h (p i).loc ≠ none) → (∀ i, v i = tgt (p i).loc) →
    Tr R D k (h.upd {l | ∃ i, (p i).loc = l} tgt) a h' →
    Tr R D (storeN n p v k) h a h' := by
  intro n
  induction n with
  | zero =>
    intro p v h _ _ _ t
    have : h.upd {l | ∃ i, (p i).loc = l} tgt = h := by
      funext l; apply Heap.upd_not; rintro ⟨i, _⟩; exact i.elim0
    rw [this] at t; exact t
  | succ n ih =>
    intro p v h hD ha hv t
    unfold storeN
    refine Tr.store (hD 0) (ha 0) ?_
    refine ih _ _ _ (fun i => hD _) (fun i => ?_) (fun i => hv _) ?_
    · unfold Heap.set; split
      · simp
      · exact ha _
    · have : (h.set (p 0).loc (v 0)).upd {l | ∃ i : Fin n, (p i.succ).loc = l} tgt =
          h.upd {l | ∃ i, (p i).loc = l} tgt := by
        funext l
        by_cases h1 : ∃ i : Fin n, (p i.succ).loc = l
        · rw [Heap.upd_mem _ (by exact h1), Heap.upd_mem _ (by
            obtain ⟨i, hi⟩ := h1; exact ⟨i.succ, hi⟩)]
        · rw [Heap.upd_not _ (by exact h1)]
          by_cases h2 : (p 0).loc = l
          · rw [Heap.upd_mem _ (show l ∈ {l | ∃ i, (p i).loc = l} from ⟨0, h2⟩)]
            subst h2
            rw [Heap.set_same, hv 0]
          · rw [Heap.set_ne _ _ (Ne.symm h2), Heap.upd_not]
            rintro ⟨i, hi⟩
            cases i using Fin.cases with
            | zero => exact h2 hi
            | succ i => exact h1 ⟨i, hi⟩
      rw [this]; exact t

theorem Heap.upd_upd (h : Heap C) (S T : Set Loc) (tgt : Loc → C) :
    (h.upd S tgt).upd T tgt = h.upd (S ∪ T) tgt := by
  funext l
  by_cases hT : l ∈ T
  · rw [Heap.upd_mem _ hT, Heap.upd_mem _ (Or.inr hT)]
  · rw [Heap.upd_not _ hT]
    by_cases hS : l ∈ S
    · rw [Heap.upd_mem _ hS, Heap.upd_mem _ (Or.inl hS)]
    · rw [Heap.upd_not _ hS, Heap.upd_not]
      rintro (h1 | h1)
      · exact hS h1
      · exact hT h1

theorem Heap.upd_ne_none (h : Heap C) {S : Set Loc} {tgt : Loc → C} {l} (hl : h l ≠ none) :
    h.upd S tgt l ≠ none := by
  unfold Heap.upd; split
  · simp
  · exact hl

theorem tr_storeM {h' : Heap C} {a : α} {L : Nat} {tgt : Loc → C} {k : Prog C α} :
    ∀ (n : Nat) (p : Fin n → Fin L → Ptr) (v : Fin n → Fin L → C) (h : Heap C),
    (∀ i l, (p i l).loc ∈ D) → (∀ i l, h (p i l).loc ≠ none) →
    (∀ i l, v i l = tgt (p i l).loc) →
    Tr R D k (h.upd {x | ∃ i l, (p i l).loc = x} tgt) a h' →
    Tr R D (storeM L n p v k) h a h' := by
  intro n
  induction n with
  | zero =>
    intro p v h _ _ _ t
    have : h.upd {x | ∃ i l, (p i l).loc = x} tgt = h := by
      funext l; apply Heap.upd_not; rintro ⟨i, _⟩; exact i.elim0
    rw [this] at t; exact t
  | succ n ih =>
    intro p v h hD ha hv t
    unfold storeM
    refine tr_storeN (tgt := tgt) _ _ _ _ (hD 0) (ha 0) (hv 0) ?_
    refine ih _ _ _ (fun i => hD _) (fun i l => ?_) (fun i => hv _) ?_
    · exact Heap.upd_ne_none _ (ha _ _)
    · rw [Heap.upd_upd]
      have : ({l | ∃ i, (p 0 i).loc = l} ∪ {x | ∃ (i : Fin n) (l : Fin L), (p i.succ l).loc = x})
          = {x | ∃ i l, (p i l).loc = x} := by
        ext x; constructor
        · rintro (⟨l, h1⟩ | ⟨i, l, h1⟩)
          · exact ⟨0, l, h1⟩
          · exact ⟨i.succ, l, h1⟩
        · rintro ⟨i, l, h1⟩
          cases i using Fin.cases with
          | zero => exact Or.inl ⟨l, h1⟩
          | succ i => exact Or.inr ⟨i, l, h1⟩
      rw [this]; exact t

end

theorem tr_bfly {L a b c : Nat} {rd : Fin a → Fin L → Ptr} {tw : Fin b → Fin L → Ptr}
    {wr : Fin c → Fin L → Ptr}
    {f : (Fin a → Fin L → C) → (Fin b → Fin L → C) → (Fin c → Fin L → C)}
    {h : Heap C} {xv wv} {tgt : Loc → C}
    (hx : ∀ i l, h (rd i l).loc = some (some (xv i l)))
    (hw : ∀ i l, h (tw i l).loc = some (some (wv i l)))
    (ha : ∀ i l, h (wr i l).loc ≠ none)
    (hv : ∀ i l, f xv wv i l = tgt (wr i l).loc) :
    Tr ({x | ∃ i l, (rd i l).loc = x} ∪ {x | ∃ i l, (tw i l).loc = x})
      {x | ∃ i l, (wr i l).loc = x} (bfly rd tw wr f) h ()
      (h.upd {x | ∃ i l, (wr i l).loc = x} tgt) := by
  unfold bfly
  refine tr_loadM _ _ _ xv (fun i l => Or.inl ⟨i, l, rfl⟩) hx ?_
  refine tr_loadM _ _ _ wv (fun i l => Or.inr ⟨i, l, rfl⟩) hw ?_
  exact tr_storeM (tgt := tgt) _ _ _ _ (fun i l => ⟨i, l, rfl⟩) ha hv .ret

theorem nodup_inj {is : List ι} (nd : is.Nodup) {n m : Nat} (hn : n < is.length)
    (hm : m < is.length) (e : is[n] = is[m]) : n = m := by
  by_contra hne
  rcases Nat.lt_or_gt_of_ne hne with h | h
  · exact (List.pairwise_iff_getElem.1 nd n m hn hm h) e
  · exact (List.pairwise_iff_getElem.1 nd m n hm hn h) e.symm

/-- A loop of kernel bodies: `S` the set of cells written, `own l` the iteration that writes `l`,
`tgt l` the value it writes. -/
theorem phase_upd {R D : Set Loc} {L a b c : Nat} (is : List ι) (nd : is.Nodup)
    {rd : ι → Fin a → Fin L → Ptr} {tw : ι → Fin b → Fin L → Ptr} {wr : ι → Fin c → Fin L → Ptr}
    {f : ι → (Fin a → Fin L → C) → (Fin b → Fin L → C) → (Fin c → Fin L → C)}
    {h : Heap C} (xv : ι → Fin a → Fin L → C) (wv : ι → Fin b → Fin L → C)
    (S : Set Loc) (tgt : Loc → C) (own : Loc → ι)
    (hx : ∀ i ∈ is, ∀ j l, h (rd i j l).loc = some (some (xv i j l)))
    (hw : ∀ i ∈ is, ∀ j l, h (tw i j l).loc = some (some (wv i j l)))
    (hwr : ∀ i ∈ is, ∀ k l, (wr i k l).loc ∈ S ∧ own (wr i k l).loc = i ∧
      f i (xv i) (wv i) k l = tgt (wr i k l).loc)
    (hcov : ∀ x ∈ S, own x ∈ is ∧ ∃ k l, (wr (own x) k l).loc = x)
    (hal : ∀ x ∈ S, h x ≠ none)
    (hrd : ∀ i ∈ is, ∀ j l, (rd i j l).loc ∈ S → own (rd i j l).loc = i)
    (htw : ∀ i ∈ is, ∀ j l, (tw i j l).loc ∈ S → own (tw i j l).loc = i)
    (hRr : ∀ i ∈ is, ∀ j l, (rd i j l).loc ∈ R) (hRt : ∀ i ∈ is, ∀ j l, (tw i j l).loc ∈ R)
    (hD : S ⊆ D) :
    PhaseGood R D (is.map fun i => bfly (rd i) (tw i) (wr i) (f i)) h (h.upd S tgt) := by
  classical
  have hlen : (is.map fun i => bfly (rd i) (tw i) (wr i) (f i)).length = is.length := by simp
  refine ⟨fun n => if hn : n < is.length then
      ({x | ∃ j l, (rd is[n] j l).loc = x} ∪ {x | ∃ j l, (tw is[n] j l).loc = x}) else ∅,
    fun n => if hn : n < is.length then {x | ∃ j l, (wr is[n] j l).loc = x} else ∅,
    fun n => if hn : n < is.length then h.upd {x | ∃ j l, (wr is[n] j l).loc = x} tgt else h,
    ?_, ?_, ?_, ?_, ?_⟩
  · intro n p hp
    have hn : n < is.length := by
      by_contra hc
      rw [List.getElem?_eq_none (by simpa using Nat.le_of_not_lt hc)] at hp
      simp at hp
    rw [List.getElem?_eq_getElem (by simpa using hn)] at hp
    simp only [List.getElem_map, Option.some.injEq] at hp
    subst hp
    simp only [hn, dif_pos]
    have hm := List.getElem_mem hn
    exact tr_bfly (hx _ hm) (hw _ hm) (fun k l => hal _ (hwr _ hm k l).1)
      (fun k l => (hwr _ hm k l).2.2)
  · intro n m hnm hn hm x hxn
    rw [hlen] at hn hm
    simp only [hn, hm, dif_pos] at hxn ⊢
    obtain ⟨k, l, rfl⟩ := hxn
    have hne : is[n] ≠ is[m] := fun e => hnm (nodup_inj nd hn hm e)
    have hmn := List.getElem_mem hn
    have hmm := List.getElem_mem hm
    have h1 := hwr _ hmn k l
    rintro ((⟨j, l', h2⟩ | ⟨j, l', h2⟩) | ⟨j, l', h2⟩)
    · apply hne
      rw [← h1.2.1, ← h2]
      exact hrd _ hmm j l' (h2 ▸ h1.1)
    · apply hne
      rw [← h1.2.1, ← h2]
      exact htw _ hmm j l' (h2 ▸ h1.1)
    · apply hne
      rw [← h1.2.1, ← h2]
      exact (hwr _ hmm j l').2.1
  · intro n hn
    rw [hlen] at hn
    simp only [hn, dif_pos]
    have hm := List.getElem_mem hn
    refine ⟨?_, ?_⟩
    · rintro x (⟨j, l, rfl⟩ | ⟨j, l, rfl⟩)
      · exact hRr _ hm j l
      · exact hRt _ hm j l
    · rintro x ⟨j, l, rfl⟩
      exact hD (hwr _ hm j l).1
  · intro n hn x hx'
    rw [hlen] at hn
    simp only [hn, dif_pos] at hx' ⊢
    have e1 := Heap.upd_mem h (tgt := tgt) hx'
    rw [e1, Heap.upd_mem]
    obtain ⟨j, l, rfl⟩ := hx'
    exact (hwr _ (List.getElem_mem hn) j l).1
  · intro x hx'
    apply Heap.upd_not
    intro hS
    obtain ⟨h1, k, l, h2⟩ := hcov x hS
    obtain ⟨n, hn, e⟩ := List.getElem_of_mem h1
    apply hx' n (by rw [hlen]; exact hn)
    simp only [hn, dif_pos]
    exact ⟨k, l, by rw [e]; exact h2⟩

/-- The common case: the loop writes exactly the array `y[0..N)`. -/
theorem phase_arr {R D : Set Loc} {L a b c : Nat} (is : List ι) (nd : is.Nodup)
    {rd : ι → Fin a → Fin L → Ptr} {tw : ι → Fin b → Fin L → Ptr} {wr : ι → Fin c → Fin L → Ptr}
    {f : ι → (Fin a → Fin L → C) → (Fin b → Fin L → C) → (Fin c → Fin L → C)}
    {h : Heap C} (xv : ι → Fin a → Fin L → C) (wv : ι → Fin b → Fin L → C)
    (y : Ptr) (N : Nat) (out : Nat → C) (own : Nat → ι)
    (hx : ∀ i ∈ is, ∀ j l, h (rd i j l).loc = some (some (xv i j l)))
    (hw : ∀ i ∈ is, ∀ j l, h (tw i j l).loc = some (some (wv i j l)))
    (hwr : ∀ i ∈ is, ∀ k l, ∃ t, t < N ∧ wr i k l = y + t ∧ own t = i ∧
      f i (xv i) (wv i) k l = out t)
    (hcov : ∀ t, t < N → own t ∈ is ∧ ∃ k l, wr (own t) k l = y + t)
    (hal : Alloc h y N)
    (hrd : ∀ i ∈ is, ∀ j l t, t < N → rd i j l = y + t → own t = i)
    (htw : ∀ i ∈ is, ∀ j l t, t < N → tw i j l = y + t → own t = i)
    (hRr : ∀ i ∈ is, ∀ j l, (rd i j l).loc ∈ R) (hRt : ∀ i ∈ is, ∀ j l, (tw i j l).loc ∈ R)
    (hD : Region y N ⊆ D) :
    ∃ h', PhaseGood R D (is.map fun i => bfly (rd i) (tw i) (wr i) (f i)) h h' ∧
      Arr h' y N out ∧ ∀ l, l ∉ Region y N → h' l = h l := by
  have loc_inj : ∀ {p q : Ptr}, p.loc = q.loc → p = q := by
    intro p q e
    cases p; cases q; simpa [Ptr.loc] using e
  refine ⟨h.upd (Region y N) (fun l => out (l.2 - y.off)), ?_, ?_, ?_⟩
  · refine phase_upd is nd xv wv (Region y N) _ (fun l => own (l.2 - y.off)) hx hw ?_ ?_ ?_ ?_ ?_
      hRr hRt hD
    · intro i hi k l
      obtain ⟨t, ht, e1, e2, e3⟩ := hwr i hi k l
      rw [e1]
      refine ⟨mem_region ht, ?_, ?_⟩
      · simpa using e2
      · simpa using e3
    · rintro x ⟨t, ht, rfl⟩
      obtain ⟨h1, k, l, e⟩ := hcov t ht
      simp only [Ptr.loc_add, Nat.add_sub_cancel_left]
      exact ⟨h1, k, l, by rw [e]; rfl⟩
    · rintro x ⟨t, ht, rfl⟩; exact hal t ht
    · rintro i hi j l ⟨t, ht, e⟩
      have := hrd i hi j l t ht (loc_inj e)
      rw [e]; simpa using this
    · rintro i hi j l ⟨t, ht, e⟩
      have := htw i hi j l t ht (loc_inj e)
      rw [e]; simpa using this
  · intro t ht
    rw [Heap.upd_mem _ (mem_region ht)]
    simp
  · intro l hl; exact Heap.upd_not _ hl

end OTFFT
