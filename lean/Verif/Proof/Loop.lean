/-
Loops of straight-line tasks given by their individual effects; runs of stores.
-/
import Verif.Proof.Phase
import Verif.Model.Real

namespace OTFFT

variable {C ι : Type}

/-- A loop of tasks with disjoint write sets, none of which reads what another writes. -/
theorem phase_tr {R D : Set Loc} (is : List ι) (nd : is.Nodup) {task : ι → Task C} {h : Heap C}
    (RS WS : ι → Set Loc) (hf : ι → Heap C)
    (htr : ∀ i ∈ is, Tr (RS i) (WS i) (task i) h () (hf i))
    (hdis : ∀ i ∈ is, ∀ j ∈ is, i ≠ j → ∀ l ∈ WS i, l ∉ RS j ∧ l ∉ WS j)
    (hR : ∀ i ∈ is, RS i ⊆ R) (hD : ∀ i ∈ is, WS i ⊆ D) :
    ∃ h', PhaseGood R D (is.map task) h h' ∧ (∀ i ∈ is, ∀ l ∈ WS i, h' l = hf i l) ∧
      (∀ l, (∀ i ∈ is, l ∉ WS i) → h' l = h l) := by
  classical
  have hlen : (is.map task).length = is.length := by simp
  let h' : Heap C := fun l => if hi : ∃ i ∈ is, l ∈ WS i then hf hi.choose l else h l
  have h1 : ∀ i ∈ is, ∀ l ∈ WS i, h' l = hf i l := by
    intro i hi l hl
    have hex : ∃ i ∈ is, l ∈ WS i := ⟨i, hi, hl⟩
    have e : hex.choose = i := by
      by_contra hne
      exact (hdis _ hex.choose_spec.1 i hi hne l hex.choose_spec.2).2 hl
    show (if hi : ∃ i ∈ is, l ∈ WS i then hf hi.choose l else h l) = _
    rw [dif_pos hex, e]
  have h2 : ∀ l, (∀ i ∈ is, l ∉ WS i) → h' l = h l := by
    intro l hl
    show (if hi : ∃ i ∈ is, l ∈ WS i then hf hi.choose l else h l) = _
    rw [dif_neg]
    rintro ⟨i, hi, h⟩
    exact hl i hi h
  refine ⟨h', ?_, h1, h2⟩
  refine ⟨fun n => if hn : n < is.length then RS is[n] else ∅,
    fun n => if hn : n < is.length then WS is[n] else ∅,
    fun n => if hn : n < is.length then hf is[n] else h, ?_, ?_, ?_, ?_, ?_⟩
  · intro n p hp
    have hn : n < is.length := by
      by_contra hc
      rw [List.getElem?_eq_none (by simpa using Nat.le_of_not_lt hc)] at hp
      simp at hp
    rw [List.getElem?_eq_getElem (by simpa using hn)] at hp
    simp only [List.getElem_map, Option.some.injEq] at hp
    subst hp
    simp only [hn, dif_pos]
    exact htr _ (List.getElem_mem hn)
  · intro n m hnm hn hm x hxn
    rw [hlen] at hn hm
    simp only [hn, hm, dif_pos] at hxn ⊢
    have hne : is[n] ≠ is[m] := fun e => hnm (nodup_inj nd hn hm e)
    have := hdis _ (List.getElem_mem hn) _ (List.getElem_mem hm) hne x hxn
    rintro (h | h)
    · exact this.1 h
    · exact this.2 h
  · intro n hn
    rw [hlen] at hn
    simp only [hn, dif_pos]
    exact ⟨hR _ (List.getElem_mem hn), hD _ (List.getElem_mem hn)⟩
  · intro n hn x hx
    rw [hlen] at hn
    simp only [hn, dif_pos] at hx ⊢
    exact h1 _ (List.getElem_mem hn) x hx
  · intro x hx
    refine h2 x fun i hi hm => ?_
    obtain ⟨n, hn, rfl⟩ := List.getElem_of_mem hi
    have := hx n (by rw [hlen]; exact hn)
    simp only [hn, dif_pos] at this
    exact this hm

/-- The same for `for (i = 0; i < n; i++)`, serial or `omp for`. -/
theorem loop_tr {R D : Set Loc} (par : Bool) (n : Nat) {task : Nat → Task C} {h : Heap C}
    (RS WS : Nat → Set Loc) (hf : Nat → Heap C)
    (htr : ∀ i < n, Tr (RS i) (WS i) (task i) h () (hf i))
    (hdis : ∀ i < n, ∀ j < n, i ≠ j → ∀ l ∈ WS i, l ∉ RS j ∧ l ∉ WS j)
    (hR : ∀ i < n, RS i ⊆ R) (hD : ∀ i < n, WS i ⊆ D) :
    ∃ h', Good R D (Code.loop par (tasks1 n task)) h h' ∧ (∀ i < n, ∀ l ∈ WS i, h' l = hf i l) ∧
      (∀ l, (∀ i < n, l ∉ WS i) → h' l = h l) := by
  obtain ⟨h', g, a, b⟩ := phase_tr (R := R) (D := D) (List.range n) List.nodup_range RS WS hf
    (fun i hi => htr i (by simpa using hi))
    (fun i hi j hj => hdis i (by simpa using hi) j (by simpa using hj))
    (fun i hi => hR i (by simpa using hi)) (fun i hi => hD i (by simpa using hi))
  exact ⟨h', g.loop par, fun i hi => a i (by simpa using hi),
    fun l hl => b l fun i hi => hl i (by simpa using hi)⟩

/-! ### runs of stores -/

/-- heap after a run of stores -/
def Heap.writes (h : Heap C) : List (Ptr × C) → Heap C
  | [] => h
  | pv :: ws => Heap.writes (h.set pv.1.loc pv.2) ws

/-- the locations written -/
def wlocs (ws : List (Ptr × C)) : Set Loc := {l | ∃ pv ∈ ws, pv.1.loc = l}

theorem tr_storeList {R D : Set Loc} : ∀ (ws : List (Ptr × C)) (h : Heap C), (∀ pv ∈ ws, pv.1.loc ∈ D) →
    (∀ pv ∈ ws, h pv.1.loc ≠ none) → Tr R D (storeList ws) h () (h.writes ws) := by
  intro ws
  induction ws with
  | nil => intro h _ _; exact .ret
  | cons pv ws ih =>
    intro h hD ha
    refine Tr.store (hD pv (by simp)) (ha pv (by simp)) (ih _ (fun q hq => hD q (by simp [hq])) fun q hq => ?_)
    unfold Heap.set
    split
    · simp
    · exact ha q (by simp [hq])

theorem Heap.writes_out : ∀ (ws : List (Ptr × C)) (h : Heap C) {l : Loc}, l ∉ wlocs ws → h.writes ws l = h l := by
  intro ws
  induction ws with
  | nil => intro h l _; rfl
  | cons pv ws ih =>
    intro h l hl
    show Heap.writes _ ws l = _
    rw [ih _ (fun ⟨q, hq, e⟩ => hl ⟨q, by simp [hq], e⟩), Heap.set_ne]
    rintro rfl
    exact hl ⟨pv, by simp, rfl⟩

/-- what is found at a written location is one of the values written there -/
theorem Heap.writes_some : ∀ (ws : List (Ptr × C)) (h : Heap C) {l : Loc}, l ∈ wlocs ws →
    ∃ pv ∈ ws, pv.1.loc = l ∧ h.writes ws l = some (some pv.2) := by
  intro ws
  induction ws with
  | nil => rintro h l ⟨pv, h1, _⟩; simp at h1
  | cons pv ws ih =>
    intro h l hl
    by_cases hm : l ∈ wlocs ws
    · obtain ⟨q, hq, e, hv⟩ := ih (h.set pv.1.loc pv.2) hm
      exact ⟨q, by simp [hq], e, hv⟩
    · obtain ⟨q, hq, e⟩ := hl
      rcases List.mem_cons.1 hq with rfl | hq
      · refine ⟨q, by simp, e, ?_⟩
        show Heap.writes _ ws l = _
        rw [Heap.writes_out ws _ hm, ← e, Heap.set_same]
      · exact absurd ⟨q, hq, e⟩ hm

/-- the value does not depend on the heap -/
theorem Heap.writes_indep : ∀ (ws : List (Ptr × C)) (h h' : Heap C) {l : Loc}, l ∈ wlocs ws →
    h.writes ws l = h'.writes ws l := by
  intro ws
  induction ws with
  | nil => rintro h h' l ⟨pv, h1, _⟩; simp at h1
  | cons pv ws ih =>
    intro h h' l hl
    show Heap.writes _ ws l = Heap.writes _ ws l
    by_cases hm : l ∈ wlocs ws
    · exact ih _ _ hm
    · obtain ⟨q, hq, e⟩ := hl
      rcases List.mem_cons.1 hq with rfl | hq
      · rw [Heap.writes_out ws _ hm, Heap.writes_out ws _ hm, ← e, Heap.set_same, Heap.set_same]
      · exact absurd ⟨q, hq, e⟩ hm

/-- last value a run of stores `a[t] = v` leaves at index `t` -/
def lastIdx : List (Nat × C) → Nat → Option C
  | [], _ => none
  | tv :: ws, t => match lastIdx ws t with
    | some v => some v
    | none => if tv.1 = t then some tv.2 else none

theorem lastIdx_none : ∀ (ws : List (Nat × C)) (t : Nat), (∀ tv ∈ ws, tv.1 ≠ t) → lastIdx ws t = none := by
  intro ws
  induction ws with
  | nil => intro t _; rfl
  | cons tv ws ih =>
    intro t h
    rw [lastIdx, ih t fun q hq => h q (by simp [hq])]
    simp [h tv (by simp)]

theorem lastIdx_some : ∀ (ws : List (Nat × C)) (t : Nat), (∃ tv ∈ ws, tv.1 = t) →
    ∃ tv ∈ ws, tv.1 = t ∧ lastIdx ws t = some tv.2 := by
  intro ws
  induction ws with
  | nil => rintro t ⟨tv, h, _⟩; simp at h
  | cons tv ws ih =>
    intro t h
    by_cases hm : ∃ tv ∈ ws, tv.1 = t
    · obtain ⟨q, hq, e, hv⟩ := ih t hm
      exact ⟨q, by simp [hq], e, by rw [lastIdx, hv]⟩
    · obtain ⟨q, hq, e⟩ := h
      rcases List.mem_cons.1 hq with rfl | hq
      · refine ⟨q, by simp, e, ?_⟩
        rw [lastIdx, lastIdx_none ws t fun r hr he => hm ⟨r, hr, he⟩]
        simp [e]
      · exact absurd ⟨q, hq, e⟩ hm

/-- the assignments `U[t] = v` -/
def atPtr (U : Ptr) (ws : List (Nat × C)) : List (Ptr × C) := ws.map fun tv => (U + tv.1, tv.2)

theorem wlocs_atPtr {U : Ptr} {ws : List (Nat × C)} {l : Loc} :
    l ∈ wlocs (atPtr U ws) ↔ ∃ tv ∈ ws, l = (U + tv.1).loc := by
  simp only [wlocs, atPtr, List.mem_map, Set.mem_setOf_eq]
  constructor
  · rintro ⟨_, ⟨tv, h, rfl⟩, rfl⟩; exact ⟨tv, h, rfl⟩
  · rintro ⟨tv, h, rfl⟩; exact ⟨_, ⟨tv, h, rfl⟩, rfl⟩

theorem Ptr.add_loc_inj {p : Ptr} {i j : Nat} (h : (p + i).loc = (p + j).loc) : i = j := by
  simpa [Ptr.loc] using h

theorem writes_atPtr (U : Ptr) : ∀ (ws : List (Nat × C)) (h : Heap C) (t : Nat) (v : C), lastIdx ws t = some v →
    h.writes (atPtr U ws) (U + t).loc = some (some v) := by
  intro ws
  induction ws with
  | nil => intro h t v e; cases e
  | cons tv ws ih =>
    intro h t v e
    show Heap.writes _ (atPtr U ws) _ = _
    by_cases hm : ∃ tv ∈ ws, tv.1 = t
    · obtain ⟨q, hq, e', hv⟩ := lastIdx_some ws t hm
      rw [lastIdx, hv] at e
      exact ih _ t v (by rw [hv]; exact e)
    · have hn := lastIdx_none ws t fun r hr he => hm ⟨r, hr, he⟩
      rw [lastIdx, hn] at e
      simp only at e
      split at e
      · rename_i ht
        cases e
        rw [Heap.writes_out]
        · rw [← ht]; exact Heap.set_same _ _ _
        · rw [wlocs_atPtr]
          rintro ⟨r, hr, he⟩
          exact hm ⟨r, hr, (Ptr.add_loc_inj he).symm⟩
      · cases e

/-- value at index `t` of a table filled by the iterations `it 0, …, it (m-1)` -/
def tabOf (d : C) (m : Nat) (it : Nat → List (Nat × C)) (t : Nat) : C :=
  ((List.range m).findSome? fun i => lastIdx (it i) t).getD d

theorem tabOf_at {d : C} {m : Nat} {it : Nat → List (Nat × C)} {i t : Nat} {v : C} (hi : i < m)
    (hv : lastIdx (it i) t = some v)
    (hdis : ∀ i < m, ∀ j < m, i ≠ j → ∀ tv ∈ it i, ∀ tv' ∈ it j, tv.1 ≠ tv'.1) :
    tabOf d m it t = v := by
  unfold tabOf
  have key : ∀ j < m, ∀ u, lastIdx (it j) t = some u → j = i := by
    intro j hj u hu
    by_contra hne
    have h1 : ∃ tv ∈ it i, tv.1 = t := by
      by_contra hc
      rw [lastIdx_none _ _ fun r hr he => hc ⟨r, hr, he⟩] at hv
      cases hv
    have h2 : ∃ tv ∈ it j, tv.1 = t := by
      by_contra hc
      rw [lastIdx_none _ _ fun r hr he => hc ⟨r, hr, he⟩] at hu
      cases hu
    obtain ⟨a, ha, ea⟩ := h1
    obtain ⟨b, hb, eb⟩ := h2
    exact hdis j hj i hi hne b hb a ha (by rw [ea, eb])
  have : ∃ u, (List.range m).findSome? (fun i => lastIdx (it i) t) = some u := by
    rw [← Option.isSome_iff_exists, List.findSome?_isSome_iff]
    exact ⟨i, by simpa using hi, by rw [hv]; rfl⟩
  obtain ⟨u, hu⟩ := this
  rw [hu]
  obtain ⟨j, hj, hju⟩ := List.exists_of_findSome?_eq_some hu
  have := key j (by simpa using hj) u hju
  subst this
  rw [hju] at hv
  cases hv
  rfl

theorem tabOf_eq {d : C} {m : Nat} {it : Nat → List (Nat × C)} {u : Nat → C} {t : Nat}
    (hv : ∀ i < m, ∀ tv ∈ it i, tv.2 = u tv.1) (hc : ∃ i < m, ∃ tv ∈ it i, tv.1 = t) :
    tabOf d m it t = u t := by
  unfold tabOf
  have : ∃ w, (List.range m).findSome? (fun i => lastIdx (it i) t) = some w := by
    rw [← Option.isSome_iff_exists, List.findSome?_isSome_iff]
    obtain ⟨i, hi, hx⟩ := hc
    obtain ⟨tv, _, _, h⟩ := lastIdx_some (it i) t hx
    exact ⟨i, by simpa using hi, by rw [h]; rfl⟩
  obtain ⟨w, hw⟩ := this
  rw [hw]
  obtain ⟨j, hj, hju⟩ := List.exists_of_findSome?_eq_some hw
  have hx : ∃ tv ∈ it j, tv.1 = t := by
    by_contra hc
    rw [lastIdx_none _ _ fun r hr he => hc ⟨r, hr, he⟩] at hju
    cases hju
  obtain ⟨tv, h1, h2, h3⟩ := lastIdx_some (it j) t hx
  rw [h3] at hju
  cases hju
  rw [← h2]
  exact hv j (by simpa using hj) tv h1

/-- A loop that fills a table: iterations write disjoint sets of entries; inside one iteration an entry
may be written more than once, the last value counts. -/
theorem table_loop {R D : Set Loc} (d : C) (par : Bool) (m M : Nat) (U : Ptr) (it : Nat → List (Nat × C)) {h : Heap C}
    (hb : ∀ i < m, ∀ tv ∈ it i, tv.1 < M)
    (hdis : ∀ i < m, ∀ j < m, i ≠ j → ∀ tv ∈ it i, ∀ tv' ∈ it j, tv.1 ≠ tv'.1)
    (hal : Alloc h U M) (hD : Region U M ⊆ D) :
    ∃ h', Good R D (Code.loop par (tasks1 m fun p => storeList (atPtr U (it p)))) h h' ∧
      (∀ t, (∃ i < m, ∃ tv ∈ it i, tv.1 = t) → h' (U + t).loc = some (some (tabOf d m it t))) ∧
      (∀ l, l ∉ Region U M → h' l = h l) ∧
      (∀ t, (∀ i < m, ∀ tv ∈ it i, tv.1 ≠ t) → h' (U + t).loc = h (U + t).loc) := by
  obtain ⟨h', g, a, b⟩ := loop_tr (R := R) (D := D) par m (h := h)
    (task := fun p => storeList (atPtr U (it p)))
    (fun _ => ∅) (fun p => wlocs (atPtr U (it p))) (fun p => h.writes (atPtr U (it p)))
    (fun i hi => tr_storeList _ _ (fun pv hp => ⟨pv, hp, rfl⟩) (fun pv hp => by
      obtain ⟨tv, ht, rfl⟩ := List.mem_map.1 hp
      exact hal _ (hb i hi tv ht)))
    (fun i hi j hj hij l hl => ⟨by simp, fun hl' => by
      rw [wlocs_atPtr] at hl hl'
      obtain ⟨tv, h1, rfl⟩ := hl
      obtain ⟨tv', h2, e⟩ := hl'
      exact hdis i hi j hj hij tv h1 tv' h2 (Ptr.add_loc_inj e)⟩)
    (fun i hi => by simp)
    (fun i hi l hl => by
      rw [wlocs_atPtr] at hl
      obtain ⟨tv, h1, rfl⟩ := hl
      exact hD (mem_region (hb i hi tv h1)))
  refine ⟨h', g, ?_, ?_, ?_⟩
  · rintro t ⟨i, hi, hx⟩
    obtain ⟨tv, h1, h2, h3⟩ := lastIdx_some (it i) t hx
    rw [a i hi _ (wlocs_atPtr.2 ⟨tv, h1, by rw [h2]⟩), writes_atPtr U _ _ _ _ h3, tabOf_at hi h3 hdis]
  · intro l hl
    refine b l fun i hi hm => hl ?_
    rw [wlocs_atPtr] at hm
    obtain ⟨tv, h1, rfl⟩ := hm
    exact mem_region (hb i hi tv h1)
  · intro t ht
    refine b _ fun i hi hm => ?_
    rw [wlocs_atPtr] at hm
    obtain ⟨tv, h1, e⟩ := hm
    exact ht i hi tv h1 (Ptr.add_loc_inj e).symm

end OTFFT
