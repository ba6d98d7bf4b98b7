/-
Loops whose iterations are arbitrary tasks with known footprint and effect.
-/
import Verif.Proof.Stage

namespace OTFFT

variable {C ι : Type}

/-- A loop of independent tasks: `S` the set of cells written, `own l` the iteration that writes
`l`, `tgt l` the final value. -/
theorem phase_gen {R D : Set Loc} (is : List ι) (nd : is.Nodup) {task : ι → Task C} {h : Heap C}
    (RS WS : ι → Set Loc) (S : Set Loc) (tgt : Loc → C) (own : Loc → ι)
    (htr : ∀ i ∈ is, Tr (RS i) (WS i) (task i) h () (h.upd (WS i) tgt))
    (hown : ∀ i ∈ is, ∀ l ∈ WS i, l ∈ S ∧ own l = i)
    (hcov : ∀ l ∈ S, own l ∈ is ∧ l ∈ WS (own l))
    (hrd : ∀ i ∈ is, ∀ l ∈ RS i, l ∈ S → own l = i)
    (hR : ∀ i ∈ is, RS i ⊆ R) (hD : S ⊆ D) :
    PhaseGood R D (is.map task) h (h.upd S tgt) := by
  classical
  have hlen : (is.map task).length = is.length := by simp
  refine ⟨fun n => if hn : n < is.length then RS is[n] else ∅,
    fun n => if hn : n < is.length then WS is[n] else ∅,
    fun n => if hn : n < is.length then h.upd (WS is[n]) tgt else h, ?_, ?_, ?_, ?_, ?_⟩
  · intro n p hp
    have hn : n < is.length := by
      by_contra hc
      rw [List.getElem?_eq_none (by simpa using Nat.le_of_not_lt hc)] at hp
      simp at hp
    rw [List.getElem?_eq_getElem (by simpa using hn)] at hp
    simp only [List.getElem_map, Option.some.injEq] at hp
    subst hp
    simp only [hn, dif_pos]
    exact htr _ (List.getElem_mem hn)
  · intro n m hnm hn hm x hxn
    rw [hlen] at hn hm
    simp only [hn, hm, dif_pos] at hxn ⊢
    have hne : is[n] ≠ is[m] := fun e => hnm (nodup_inj nd hn hm e)
    have h1 := hown _ (List.getElem_mem hn) x hxn
    rintro (h2 | h2)
    · exact hne (h1.2.symm.trans (hrd _ (List.getElem_mem hm) x h2 h1.1))
    · exact hne (h1.2.symm.trans (hown _ (List.getElem_mem hm) x h2).2)
  · intro n hn
    rw [hlen] at hn
    simp only [hn, dif_pos]
    have hm := List.getElem_mem hn
    exact ⟨hR _ hm, fun x hx => hD (hown _ hm x hx).1⟩
  · intro n hn x hx'
    rw [hlen] at hn
    simp only [hn, dif_pos] at hx' ⊢
    have e1 := Heap.upd_mem h (tgt := tgt) hx'
    rw [e1, Heap.upd_mem]
    exact (hown _ (List.getElem_mem hn) x hx').1
  · intro x hx'
    apply Heap.upd_not
    intro hS
    obtain ⟨h1, h2⟩ := hcov x hS
    obtain ⟨n, hn, e⟩ := List.getElem_of_mem h1
    apply hx' n (by rw [hlen]; exact hn)
    simp only [hn, dif_pos]
    rw [e]; exact h2

/-- value function of an array as a function on locations -/
def onArr (y : Ptr) (out : Nat → C) : Loc → C := fun l => out (l.2 - y.off)

@[simp] theorem onArr_at (y : Ptr) (out : Nat → C) (t : Nat) : onArr y out (y + t).loc = out t := by
  simp [onArr]

/-- cells of `y[0..N)` selected by a predicate on the index -/
def Cells (y : Ptr) (P : Nat → Prop) : Set Loc := {l | ∃ t, P t ∧ l = (y + t).loc}

/-- The common case: the loop writes exactly the array `y[0..N)`. -/
theorem phase_garr {R D : Set Loc} (is : List ι) (nd : is.Nodup) {task : ι → Task C} {h : Heap C}
    (RS : ι → Set Loc) (y : Ptr) (N : Nat) (out : Nat → C) (own : Nat → ι)
    (htr : ∀ i ∈ is, Tr (RS i) (Cells y fun t => t < N ∧ own t = i) (task i) h ()
      (h.upd (Cells y fun t => t < N ∧ own t = i) (onArr y out)))
    (hcov : ∀ t, t < N → own t ∈ is)
    (hrd : ∀ i ∈ is, ∀ l ∈ RS i, ∀ t < N, l = (y + t).loc → own t = i)
    (hR : ∀ i ∈ is, RS i ⊆ R) (hD : Region y N ⊆ D) :
    ∃ h', PhaseGood R D (is.map task) h h' ∧ Arr h' y N out ∧
      ∀ l, l ∉ Region y N → h' l = h l := by
  refine ⟨h.upd (Region y N) (onArr y out), ?_, ?_, ?_⟩
  · refine phase_gen is nd RS (fun i => Cells y fun t => t < N ∧ own t = i) (Region y N) _
      (fun l => own (l.2 - y.off)) htr ?_ ?_ ?_ hR hD
    · rintro i hi l ⟨t, ⟨ht, e⟩, rfl⟩
      exact ⟨mem_region ht, by simpa using e⟩
    · rintro l ⟨t, ht, rfl⟩
      simp only [Ptr.loc_add, Nat.add_sub_cancel_left]
      exact ⟨hcov t ht, t, ⟨ht, rfl⟩, rfl⟩
    · rintro i hi l hl ⟨t, ht, rfl⟩
      have := hrd i hi _ hl t ht rfl
      simpa using this
  · intro t ht
    rw [Heap.upd_mem _ (mem_region ht), onArr_at]
  · intro l hl; exact Heap.upd_not _ hl

end OTFFT
