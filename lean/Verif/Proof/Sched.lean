/-
Footprint reasoning: tasks with independent footprints give the same heap under every schedule.
-/
import Verif.Model.Mem

namespace OTFFT

variable {C α β : Type}

/-- `TrN R D n p h a h'`: started in `h`, task `p` makes `n` steps without undefined behaviour,
reads only in `R`, writes only in `D`, and ends with result `a` and heap `h'`. -/
inductive TrN (R D : Set Loc) : Nat → Prog C α → Heap C → α → Heap C → Prop where
  | ret {a h} : TrN R D 0 (.ret a) h a h
  | load {n l k h v a h'} : l ∈ R → h l = some (some v) → TrN R D n (k v) h a h' →
      TrN R D (n+1) (.load l k) h a h'
  | store {n l v k h a h'} : l ∈ D → h l ≠ none → TrN R D n k (h.set l v) a h' →
      TrN R D (n+1) (.store l v k) h a h'

/-- `TrN` with the number of steps forgotten. -/
def Tr (R D : Set Loc) (p : Prog C α) (h : Heap C) (a : α) (h' : Heap C) : Prop :=
  ∃ n, TrN R D n p h a h'

namespace TrN

variable {R D R' D' : Set Loc}

theorem mono {n} {p : Prog C α} {h a h'} (t : TrN R D n p h a h') (hR : R ⊆ R') (hD : D ⊆ D') :
    TrN R' D' n p h a h' := by
  induction t with
  | ret => exact .ret
  | load hl hv _ ih => exact .load (hR hl) hv ih
  | store hl hv _ ih => exact .store (hD hl) hv ih

/-- cells outside the write footprint are unchanged -/
theorem out {n} {p : Prog C α} {h a h'} (t : TrN R D n p h a h') : ∀ l, l ∉ D → h' l = h l := by
  induction t with
  | ret => intro l _; rfl
  | load _ _ _ ih => exact ih
  | store hl _ _ ih =>
    intro l hn
    rw [ih l hn, Heap.set_ne]
    rintro rfl; exact hn hl

/-- allocated cells stay allocated -/
theorem alloc {n} {p : Prog C α} {h a h'} (t : TrN R D n p h a h') :
    ∀ l, h l ≠ none → h' l ≠ none := by
  induction t with
  | ret => intro l h; exact h
  | load _ _ _ ih => exact ih
  | store hl _ _ ih =>
    intro l hn
    apply ih
    unfold Heap.set; split <;> simp_all

/-- a task only depends on its footprint -/
theorem frame {n} {p : Prog C α} {h a h'} (t : TrN R D n p h a h') :
    ∀ g : Heap C, (∀ l ∈ R ∪ D, g l = h l) →
      ∃ g', TrN R D n p g a g' ∧ ∀ l ∈ R ∪ D, g' l = h' l := by
  induction t with
  | ret => intro g hg; exact ⟨g, .ret, hg⟩
  | load hl hv _ ih =>
    intro g hg
    obtain ⟨g', t', h''⟩ := ih g hg
    exact ⟨g', .load hl (by rw [hg _ (Or.inl hl), hv]) t', h''⟩
  | @store n l v k h a h' hl hv _ ih =>
    intro g hg
    obtain ⟨g', t', h''⟩ := ih (g.set l v) (by
      intro l' hl'
      unfold Heap.set; split
      · rfl
      · exact hg l' hl')
    exact ⟨g', .store hl (by rw [hg _ (Or.inr hl)]; exact hv) t', h''⟩

theorem bind {n m} {p : Prog C α} {f : α → Prog C β} {h a h' b h''}
    (t : TrN R D n p h a h') (u : TrN R D m (f a) h' b h'') :
    TrN R D (n+m) (p.bind f) h b h'' := by
  induction t with
  | ret => simpa [Prog.bind] using u
  | load hl hv _ ih =>
    rw [Nat.add_right_comm]; exact .load hl hv (ih u)
  | store hl hv _ ih =>
    rw [Nat.add_right_comm]; exact .store hl hv (ih u)

theorem inv_ret {n} {a b : α} {h h' : Heap C} (t : TrN R D n (.ret a) h b h') : h' = h := by
  cases t; rfl
theorem inv_ub {n} {b : α} {h h' : Heap C} (t : TrN R D n (.ub) h b h') : False := by
  cases t
theorem inv_load {n l} {k : C → Prog C α} {b : α} {h h' : Heap C}
    (t : TrN R D n (.load l k) h b h') :
    ∃ m v, n = m + 1 ∧ l ∈ R ∧ h l = some (some v) ∧ TrN R D m (k v) h b h' := by
  cases t with | load a b c => exact ⟨_, _, rfl, a, b, c⟩
theorem inv_store {n l v} {k : Prog C α} {b : α} {h h' : Heap C}
    (t : TrN R D n (.store l v k) h b h') :
    ∃ m, n = m + 1 ∧ l ∈ D ∧ h l ≠ none ∧ TrN R D m k (h.set l v) b h' := by
  cases t with | store a b c => exact ⟨_, rfl, a, b, c⟩

end TrN

namespace Tr
variable {R D R' D' : Set Loc}

theorem ret {a : α} {h : Heap C} : Tr R D (.ret a) h a h := ⟨0, .ret⟩
theorem load {l} {k : C → Prog C α} {h v a h'} (hl : l ∈ R) (hv : h l = some (some v))
    (t : Tr R D (k v) h a h') : Tr R D (.load l k) h a h' := by
  obtain ⟨n, t⟩ := t; exact ⟨n+1, .load hl hv t⟩
theorem store {l v} {k : Prog C α} {h : Heap C} {a h'} (hl : l ∈ D) (hv : h l ≠ none)
    (t : Tr R D k (h.set l v) a h') : Tr R D (.store l v k) h a h' := by
  obtain ⟨n, t⟩ := t; exact ⟨n+1, .store hl hv t⟩
theorem mono {p : Prog C α} {h a h'} (t : Tr R D p h a h') (hR : R ⊆ R') (hD : D ⊆ D') :
    Tr R' D' p h a h' := by
  obtain ⟨n, t⟩ := t; exact ⟨n, t.mono hR hD⟩
theorem out {p : Prog C α} {h a h'} (t : Tr R D p h a h') : ∀ l, l ∉ D → h' l = h l := by
  obtain ⟨n, t⟩ := t; exact t.out
theorem alloc {p : Prog C α} {h a h'} (t : Tr R D p h a h') : ∀ l, h l ≠ none → h' l ≠ none := by
  obtain ⟨n, t⟩ := t; exact t.alloc
theorem bind {p : Prog C α} {f : α → Prog C β} {h a h' b h''}
    (t : Tr R D p h a h') (u : Tr R D (f a) h' b h'') : Tr R D (p.bind f) h b h'' := by
  obtain ⟨n, t⟩ := t; obtain ⟨m, u⟩ := u; exact ⟨_, t.bind u⟩

end Tr

/-- Phase with independent tasks, started in `h`, footprint within `R`/`D`, merged heap `h'`. -/
def PhaseGood (R D : Set Loc) (ts : List (Task C)) (h h' : Heap C) : Prop :=
  ∃ (Rs Ds : Nat → Set Loc) (hf : Nat → Heap C),
    (∀ i p, ts[i]? = some p → Tr (Rs i) (Ds i) p h () (hf i)) ∧
    (∀ i j, i ≠ j → i < ts.length → j < ts.length → ∀ l, l ∈ Ds i → l ∉ Rs j ∪ Ds j) ∧
    (∀ i, i < ts.length → Rs i ⊆ R ∧ Ds i ⊆ D) ∧
    (∀ i, i < ts.length → ∀ l ∈ Ds i, h' l = hf i l) ∧
    (∀ l, (∀ i, i < ts.length → l ∉ Ds i) → h' l = h l)

/-- Code all of whose phases have independent tasks. -/
inductive Good (R D : Set Loc) : Code C → Heap C → Heap C → Prop where
  | nil {h} : Good R D [] h h
  | cons {ts c h h1 h'} : PhaseGood R D ts h h1 → Good R D c h1 h' → Good R D (ts :: c) h h'

theorem PhaseGood.mono {R D R' D' : Set Loc} {ts : List (Task C)} {h h'}
    (g : PhaseGood R D ts h h') (hR : R ⊆ R') (hD : D ⊆ D') : PhaseGood R' D' ts h h' := by
  obtain ⟨Rs, Ds, hf, a, b, c, d, e⟩ := g
  exact ⟨Rs, Ds, hf, a, b, fun i hi => ⟨(c i hi).1.trans hR, (c i hi).2.trans hD⟩, d, e⟩

theorem PhaseGood.out {R D : Set Loc} {ts : List (Task C)} {h h'}
    (g : PhaseGood R D ts h h') : ∀ l, l ∉ D → h' l = h l := by
  obtain ⟨Rs, Ds, hf, a, b, c, d, e⟩ := g
  intro l hl
  exact e l fun i hi hm => hl ((c i hi).2 hm)

theorem PhaseGood.alloc {R D : Set Loc} {ts : List (Task C)} {h h'}
    (g : PhaseGood R D ts h h') : ∀ l, h l ≠ none → h' l ≠ none := by
  obtain ⟨Rs, Ds, hf, a, b, c, d, e⟩ := g
  intro l hl
  by_cases hm : ∀ i, i < ts.length → l ∉ Ds i
  · rw [e l hm]; exact hl
  · push Not at hm
    obtain ⟨i, hi, hm⟩ := hm
    rw [d i hi l hm]
    exact (a i ts[i] (by simp [hi])).alloc l hl

namespace Good
variable {R D R' D' : Set Loc}

theorem mono {c : Code C} {h h'} (g : Good R D c h h') (hR : R ⊆ R') (hD : D ⊆ D') :
    Good R' D' c h h' := by
  induction g with
  | nil => exact .nil
  | cons p _ ih => exact .cons (p.mono hR hD) ih

theorem out {c : Code C} {h h'} (g : Good R D c h h') : ∀ l, l ∉ D → h' l = h l := by
  induction g with
  | nil => intro l _; rfl
  | cons p _ ih => intro l hl; rw [ih l hl, p.out l hl]

theorem alloc {c : Code C} {h h'} (g : Good R D c h h') : ∀ l, h l ≠ none → h' l ≠ none := by
  induction g with
  | nil => intro l h; exact h
  | cons p _ ih => intro l hl; exact ih l (p.alloc l hl)

theorem append {c d : Code C} {h h' h''} (g : Good R D c h h') (g' : Good R D d h' h'') :
    Good R D (c ++ d) h h'' := by
  induction g with
  | nil => exact g'
  | cons p _ ih => exact .cons p (ih g')

theorem single {t : Task C} {h h'} (tr : Tr R D t h () h') : Good R D [[t]] h h' := by
  refine .cons ⟨fun _ => R, fun _ => D, fun _ => h', ?_, ?_, ?_, ?_, ?_⟩ .nil
  · intro i p hp
    cases i with
    | zero => simp at hp; subst hp; exact tr
    | succ i => simp at hp
  · intro i j hij hi hj
    simp at hi hj; omega
  · intro i _; exact ⟨subset_rfl, subset_rfl⟩
  · intro i _ l _; rfl
  · intro l hl; exact tr.out l (hl 0 (by simp))

end Good

/-! ### Every schedule of an independent phase reaches the merged heap -/

private theorem sum_lt_of {n : Nat} (f g : Nat → Nat) (i : Nat) (hi : i < n) (h : g i < f i)
    (hne : ∀ j, j ≠ i → g j = f j) :
    ((List.range n).map g).sum < ((List.range n).map f).sum := by
  induction n with
  | zero => omega
  | succ n ih =>
    simp only [List.range_succ, List.map_append, List.map_cons, List.map_nil, List.sum_append,
      List.sum_cons, List.sum_nil, Nat.add_zero]
    by_cases hin : i = n
    · subst hin
      have : ((List.range i).map g) = ((List.range i).map f) := by
        apply List.map_congr_left
        intro j hj; apply hne; simp at hj; omega
      rw [this]; omega
    · have := ih (by omega)
      rw [hne n (by omega)]; omega

/-- As `AllSched`, and every access made under any schedule is a read in `R` or a write in `D`. -/
inductive AllSchedF {C : Type} (R D : Set Loc) (Q : Heap C → Prop) : Config C → Prop where
  | intro {c : Config C} (noUB : ¬ c.UB)
      (foot : ∀ t ∈ c.cur, ∀ l b, Prog.access t = some (l, b) → l ∈ if b then D else R)
      (post : c.Final → Q c.heap)
      (next : ∀ c', CStep c c' → AllSchedF R D Q c') : AllSchedF R D Q c

theorem AllSchedF.allSched {R D : Set Loc} {Q : Heap C → Prop} {c : Config C} (a : AllSchedF R D Q c) :
    AllSched Q c := by
  induction a with
  | intro nu _ post _ ih => exact .intro nu post ih

theorem AllSchedF.access {R D : Set Loc} {Q : Heap C → Prop} {c d : Config C} (a : AllSchedF R D Q c)
    (r : Reach c d) {t : Task C} (ht : t ∈ d.cur) {l : Loc} {b : Bool} (h : Prog.access t = some (l, b)) :
    l ∈ if b then D else R := by
  induction r with
  | refl => cases a with | intro _ f _ _ => exact f t ht l b h
  | step s _ ih => cases a with | intro _ _ _ n => exact ih (n _ s) ht

theorem phase_sched {R D : Set Loc} {Q : Heap C → Prop} {rest : Code C} {hm : Heap C}
    (K : ∀ ts' : List (Task C), (∀ t ∈ ts', t = .ret ()) → AllSchedF R D Q ⟨ts', rest, hm⟩)
    (Rs Ds : Nat → Set Loc) :
    ∀ (N : Nat) (ts : List (Task C)) (g : Heap C) (hf : Nat → Heap C) (cnt : Nat → Nat),
      ((List.range ts.length).map cnt).sum = N →
      (∀ i p, ts[i]? = some p → TrN (Rs i) (Ds i) (cnt i) p g () (hf i)) →
      (∀ i j, i ≠ j → i < ts.length → j < ts.length → ∀ l, l ∈ Ds i → l ∉ Rs j ∪ Ds j) →
      (∀ i, i < ts.length → ∀ l ∈ Ds i, hm l = hf i l) →
      (∀ l, (∀ i, i < ts.length → l ∉ Ds i) → hm l = g l) →
      (∀ i, i < ts.length → Rs i ⊆ R ∧ Ds i ⊆ D) →
      AllSchedF R D Q ⟨ts, rest, g⟩ := by
  intro N
  induction N using Nat.strong_induction_on with
  | _ N IH =>
  intro ts g hf cnt hN htr hind hd he hRD
  by_cases hall : ∀ t ∈ ts, t = .ret ()
  · have hg : g = hm := by
      funext l
      by_cases hl : ∀ i, i < ts.length → l ∉ Ds i
      · exact (he l hl).symm
      · push Not at hl
        obtain ⟨i, hi, hl⟩ := hl
        have h1 := htr i ts[i] (by simp [hi])
        rw [hall ts[i] (List.getElem_mem hi)] at h1
        have : hf i = g := h1.inv_ret
        rw [hd i hi l hl, this]
    rw [hg]; exact K ts hall
  · refine .intro ?_ ?_ ?_ ?_
    · rintro (⟨t, ht, hb⟩ | ⟨i, j, p, q, l, a, b, hij, hi, hj, ha, hb, hab⟩)
      · obtain ⟨i, hi, rfl⟩ := List.getElem_of_mem ht
        have h1 := htr i ts[i] (by simp [hi])
        revert h1 hb
        generalize ts[i] = t
        intro hb h1
        cases hb with
        | ub => exact h1.inv_ub
        | load hv => obtain ⟨_, _, _, _, hv', _⟩ := h1.inv_load; exact hv _ hv'
        | store hv => obtain ⟨_, _, _, hv', _⟩ := h1.inv_store; exact hv' hv
      · have hil : i < ts.length := by
          by_contra hc; simp [List.getElem?_eq_none (Nat.le_of_not_lt hc)] at hi
        have hjl : j < ts.length := by
          by_contra hc; simp [List.getElem?_eq_none (Nat.le_of_not_lt hc)] at hj
        have hti := htr i p hi
        have htj := htr j q hj
        have li : l ∈ Rs i ∪ Ds i ∧ (a = true → l ∈ Ds i) := by
          cases p <;> simp [Prog.access] at ha
          · obtain ⟨rfl, rfl⟩ := ha
            obtain ⟨_, _, _, h1, _⟩ := hti.inv_load; exact ⟨Or.inl h1, by simp⟩
          · obtain ⟨rfl, rfl⟩ := ha
            obtain ⟨_, _, h1, _⟩ := hti.inv_store; exact ⟨Or.inr h1, fun _ => h1⟩
        have lj : l ∈ Rs j ∪ Ds j ∧ (b = true → l ∈ Ds j) := by
          cases q <;> simp [Prog.access] at hb
          · obtain ⟨rfl, rfl⟩ := hb
            obtain ⟨_, _, _, h1, _⟩ := htj.inv_load; exact ⟨Or.inl h1, by simp⟩
          · obtain ⟨rfl, rfl⟩ := hb
            obtain ⟨_, _, h1, _⟩ := htj.inv_store; exact ⟨Or.inr h1, fun _ => h1⟩
        rcases hab with hab | hab
        · exact hind i j hij hil hjl l (li.2 hab) lj.1
        · exact hind j i (Ne.symm hij) hjl hil l (lj.2 hab) li.1
    · intro t ht l b ha
      obtain ⟨i, hi, rfl⟩ := List.getElem_of_mem ht
      have h1 := htr i ts[i] (by simp [hi])
      revert h1 ha
      generalize ts[i] = t
      intro ha h1
      cases t <;> simp [Prog.access] at ha
      · obtain ⟨rfl, rfl⟩ := ha
        obtain ⟨_, _, _, h2, _⟩ := h1.inv_load; exact (hRD i hi).1 h2
      · obtain ⟨rfl, rfl⟩ := ha
        obtain ⟨_, _, h2, _⟩ := h1.inv_store; exact (hRD i hi).2 h2
    · rintro ⟨h1, _⟩; exact absurd h1 hall
    · intro c' hs
      cases hs with
      | barrier h1 => exact absurd h1 hall
      | @task _ _ _ p p' h' i hi hst =>
        have hil : i < ts.length := by
          by_contra hc; simp [List.getElem?_eq_none (Nat.le_of_not_lt hc)] at hi
        have hti := htr i p hi
        -- common part: new count function
        cases hst with
        | @load _ l v k hv =>
          obtain ⟨n, hn⟩ : ∃ n, cnt i = n + 1 ∧ TrN (Rs i) (Ds i) n (k v) g () (hf i) := by
            obtain ⟨n, v', e, _, hv', ht⟩ := hti.inv_load
            rw [hv] at hv'; cases hv'; exact ⟨n, e, ht⟩
          have key := IH _ (by
              have := sum_lt_of (n := ts.length) cnt (fun j => if j = i then n else cnt j) i hil
                (by simp [hn.1]) (by intro j hj; simp [hj])
              rw [hN] at this; exact this) (ts.set i (k v)) g hf
              (fun j => if j = i then n else cnt j) (by simp)
          apply key
          · intro j q hq
            by_cases hji : j = i
            · subst hji
              simp [hil] at hq
              subst hq; simpa using hn.2
            · rw [List.getElem?_set_ne (Ne.symm hji)] at hq
              simpa [hji] using htr j q hq
          · simpa using hind
          · simpa using hd
          · simpa using he
          · simpa using hRD
        | @store _ l v _ hv =>
          obtain ⟨n, hn⟩ : ∃ n, cnt i = n + 1 ∧ l ∈ Ds i ∧
              TrN (Rs i) (Ds i) n p' (g.set l v) () (hf i) := by
            obtain ⟨n, e, hl, _, ht⟩ := hti.inv_store
            exact ⟨n, e, hl, ht⟩
          have hfr : ∀ j, ∃ g', j < ts.length → j ≠ i →
              (∀ q, ts[j]? = some q → TrN (Rs j) (Ds j) (cnt j) q (g.set l v) () g') ∧
              ∀ x ∈ Ds j, g' x = hf j x := by
            intro j
            by_cases hj : j < ts.length ∧ j ≠ i
            · obtain ⟨g', t', h'⟩ := (htr j ts[j] (by simp [hj.1])).frame (g.set l v) (by
                intro x hx
                apply Heap.set_ne
                rintro rfl
                exact hind i j (Ne.symm hj.2) hil hj.1 _ hn.2.1 hx)
              refine ⟨g', fun _ _ => ⟨?_, fun x hx => h' x (Or.inr hx)⟩⟩
              intro q hq
              rw [List.getElem?_eq_getElem hj.1] at hq
              cases hq; exact t'
            · exact ⟨g, fun h1 h2 => absurd ⟨h1, h2⟩ hj⟩
          choose gf hgf using hfr
          have key := IH _ (by
              have := sum_lt_of (n := ts.length) cnt (fun j => if j = i then n else cnt j) i hil
                (by simp [hn.1]) (by intro j hj; simp [hj])
              rw [hN] at this; exact this) (ts.set i p') (g.set l v)
              (fun j => if j = i then hf i else gf j)
              (fun j => if j = i then n else cnt j) (by simp)
          apply key
          · intro j q hq
            by_cases hji : j = i
            · subst hji
              simp [hil] at hq
              subst hq; simpa using hn.2.2
            · rw [List.getElem?_set_ne (Ne.symm hji)] at hq
              have hjl : j < ts.length := by
                by_contra hc; simp [List.getElem?_eq_none (Nat.le_of_not_lt hc)] at hq
              simpa [hji] using (hgf j hjl hji).1 q hq
          · simpa using hind
          · intro j hj x hx
            simp at hj
            by_cases hji : j = i
            · subst hji; simpa using hd j hj x hx
            · simp only [hji, if_false]
              rw [(hgf j hj hji).2 x hx]; exact hd j hj x hx
          · intro x hx
            simp at hx
            rw [Heap.set_ne]
            · exact he x hx
            · rintro rfl; exact hx i hil hn.2.1
          · simpa using hRD

private theorem ret_sched {R D : Set Loc} {Q : Heap C → Prop} (ts : List (Task C)) (hts : ∀ t ∈ ts, t = .ret ())
    (rest : Code C) (h : Heap C) (hpost : rest = [] → Q h)
    (hrest : ∀ ph r, rest = ph :: r → AllSchedF R D Q ⟨ph, r, h⟩) : AllSchedF R D Q ⟨ts, rest, h⟩ := by
  refine .intro ?_ ?_ ?_ ?_
  · rintro (⟨t, ht, hb⟩ | ⟨i, j, p, q, l, a, b, hij, hi, hj, ha, hb, hab⟩)
    · rw [hts t ht] at hb; cases hb
    · have := hts p (List.mem_of_getElem? hi)
      subst this; simp [Prog.access] at ha
  · intro t ht l b ha
    rw [hts t ht] at ha; simp [Prog.access] at ha
  · rintro ⟨_, h2⟩; exact hpost h2
  · intro c' hs
    cases hs with
    | task i hi hst =>
      have := hts _ (List.mem_of_getElem? hi)
      subst this; cases hst
    | barrier h1 => exact hrest _ _ rfl

/-- Soundness: independent code behaves the same under every schedule. -/
theorem Good.schedF {R D : Set Loc} {c : Code C} {h h'} (g : Good R D c h h') :
    ∀ ts : List (Task C), (∀ t ∈ ts, t = .ret ()) → AllSchedF R D (fun k => k = h') ⟨ts, c, h⟩ := by
  induction g with
  | nil => intro ts hts; exact ret_sched ts hts _ _ (fun _ => rfl) (by simp)
  | @cons ph c h h1 h' p _ ih =>
    intro ts hts
    refine ret_sched ts hts _ _ (by simp) ?_
    intro ph' r hr
    cases hr
    obtain ⟨Rs, Ds, hf, a, b, cc, d, e⟩ := p
    have : ∀ i, ∃ n, ∀ p, ph[i]? = some p → TrN (Rs i) (Ds i) n p h () (hf i) := by
      intro i
      cases hp : ph[i]? with
      | none => exact ⟨0, by simp⟩
      | some p =>
        obtain ⟨n, t⟩ := a i p hp
        exact ⟨n, by rintro q hq; cases hq; exact t⟩
    choose cnt hcnt using this
    exact phase_sched ih Rs Ds _ ph h hf cnt rfl hcnt b d e cc

theorem Good.sched {R D : Set Loc} {c : Code C} {h h'} (g : Good R D c h h') (ts : List (Task C))
    (hts : ∀ t ∈ ts, t = .ret ()) : AllSched (fun k => k = h') ⟨ts, c, h⟩ := (g.schedF ts hts).allSched

/-- every access under every schedule is a read in `R` or a write in `D` -/
theorem Good.foot {R D : Set Loc} {c : Code C} {h h'} (g : Good R D c h h') {d : Config C}
    (r : Reach (c.start h) d) {t : Task C} (ht : t ∈ d.cur) {l : Loc} {b : Bool}
    (ha : Prog.access t = some (l, b)) : l ∈ if b then D else R :=
  (g.schedF [] (by simp)).access r ht ha

theorem Good.allSched {R D : Set Loc} {c : Code C} {h h'} (g : Good R D c h h') :
    AllSched (fun k => k = h') (c.start h) := g.sched [] (by simp)

theorem AllSched.mono {Q Q' : Heap C → Prop} {c : Config C} (a : AllSched Q c)
    (h : ∀ k, Q k → Q' k) : AllSched Q' c := by
  induction a with
  | intro nu post _ ih => exact .intro nu (fun f => h _ (post f)) ih

/-- `AllSched` really excludes undefined behaviour in every reachable configuration. -/
theorem AllSched.noUB {Q : Heap C → Prop} {c d : Config C} (a : AllSched Q c) (r : Reach c d) :
    ¬ d.UB := by
  induction r with
  | refl => cases a; assumption
  | step s _ ih => cases a with | intro _ _ n => exact ih (n _ s)

/-- and every reachable final heap satisfies the postcondition. -/
theorem AllSched.final {Q : Heap C → Prop} {c d : Config C} (a : AllSched Q c) (r : Reach c d)
    (f : d.Final) : Q d.heap := by
  induction r with
  | refl => cases a with | intro _ p _ => exact p f
  | step s _ ih => cases a with | intro _ _ n => exact ih (n _ s) f

/-- and some final configuration is reachable (no deadlock, no divergence). -/
theorem AllSched.terminates {Q : Heap C → Prop} {c : Config C} (a : AllSched Q c) :
    ∃ d, Reach c d ∧ d.Final ∧ Q d.heap := by
  induction a with
  | @intro c nu post _ ih =>
    by_cases hf : c.Final
    · exact ⟨c, .refl c, hf, post hf⟩
    · have : ∃ c', CStep c c' := by
        obtain ⟨ts, rest, h⟩ := c
        by_cases hall : ∀ t ∈ ts, t = .ret ()
        · cases rest with
          | nil => exact absurd ⟨hall, rfl⟩ hf
          | cons ph r => exact ⟨_, .barrier hall⟩
        · push Not at hall
          obtain ⟨t, ht, hne⟩ := hall
          obtain ⟨i, hi, rfl⟩ := List.getElem_of_mem ht
          have hi' : ts[i]? = some ts[i] := by simp [hi]
          have hnb : ¬ (ts[i]).Bad h := fun hb => nu (Or.inl ⟨_, ht, hb⟩)
          revert hi' hne hnb
          generalize ts[i] = t
          intro hne hi' hnb
          cases t with
          | ret a => exact absurd rfl hne
          | load l k =>
            by_cases hv : ∃ v, h l = some (some v)
            · obtain ⟨v, hv⟩ := hv
              exact ⟨_, .task i hi' (.load hv)⟩
            · push Not at hv
              exact absurd (.load hv) hnb
          | store l v k =>
            by_cases hv : h l = none
            · exact absurd (.store hv) hnb
            · exact ⟨_, .task i hi' (.store hv)⟩
          | ub => exact absurd .ub hnb
      obtain ⟨c', hc'⟩ := this
      obtain ⟨d, hr, hd⟩ := ih c' hc'
      exact ⟨d, .step hc' hr, hd⟩

/-! ### Sequential execution of independent code in one task -/

private theorem seq_tasks {R D : Set Loc} (Rs Ds : Nat → Set Loc) (k : Task C) :
    ∀ (ts : List (Task C)) (s : Nat) (h h' h'' : Heap C) (hf : Nat → Heap C),
      (∀ i p, ts[i]? = some p → Tr (Rs (s+i)) (Ds (s+i)) p h () (hf i)) →
      (∀ i j, i ≠ j → i < ts.length → j < ts.length →
        ∀ l, l ∈ Ds (s+i) → l ∉ Rs (s+j) ∪ Ds (s+j)) →
      (∀ i, i < ts.length → Rs (s+i) ⊆ R ∧ Ds (s+i) ⊆ D) →
      (∀ i, i < ts.length → ∀ l ∈ Ds (s+i), h' l = hf i l) →
      (∀ l, (∀ i, i < ts.length → l ∉ Ds (s+i)) → h' l = h l) →
      Tr R D k h' () h'' →
      Tr R D (ts.foldr (fun t k => t.bind fun _ => k) k) h () h'' := by
  intro ts
  induction ts with
  | nil =>
    intro s h h' h'' hf _ _ _ _ e tk
    have : h' = h := by funext l; exact e l (by simp)
    subst this; exact tk
  | cons t ts ih =>
    intro s h h' h'' hf a b c d e tk
    have t0 := a 0 t rfl
    simp only [List.foldr_cons]
    refine (t0.mono (c 0 (by simp)).1 (c 0 (by simp)).2).bind ?_
    -- reframe the other tasks on the heap after task 0
    have hfr : ∀ j, ∃ g', ∀ p, ts[j]? = some p →
        Tr (Rs (s+1+j)) (Ds (s+1+j)) p (hf 0) () g' ∧ ∀ x ∈ Ds (s+1+j), g' x = hf (j+1) x := by
      intro j
      cases hp : ts[j]? with
      | none => exact ⟨h, by simp⟩
      | some p =>
        have hj : j < ts.length := by
          by_contra hc; simp [List.getElem?_eq_none (Nat.le_of_not_lt hc)] at hp
        obtain ⟨n, tj⟩ := a (j+1) p (by simpa using hp)
        obtain ⟨g', t', h1⟩ := tj.frame (hf 0) (by
          intro x hx
          apply t0.out
          intro hx0
          exact b 0 (j+1) (by omega) (by simp) (by simpa using hj) x hx0 hx)
        refine ⟨g', ?_⟩
        rintro q hq; cases hq
        have e1 : s + 1 + j = s + (j+1) := by omega
        rw [e1]
        exact ⟨⟨n, t'⟩, fun x hx => h1 x (Or.inr hx)⟩
    choose gf hgf using hfr
    refine ih (s+1) (hf 0) h' h'' gf ?_ ?_ ?_ ?_ ?_ tk
    · intro i p hp; exact (hgf i p hp).1
    · intro i j hij hi hj
      have := b (i+1) (j+1) (by omega) (by simpa using hi) (by simpa using hj)
      simpa [Nat.add_assoc, Nat.add_comm 1] using this
    · intro i hi
      have := c (i+1) (by simpa using hi)
      simpa [Nat.add_assoc, Nat.add_comm 1] using this
    · intro i hi l hl
      rw [(hgf i ts[i] (by simp [hi])).2 l hl]
      have := d (i+1) (by simpa using hi) l
      rw [this (by simpa [Nat.add_assoc, Nat.add_comm 1] using hl)]
    · intro l hl
      by_cases h0 : l ∈ Ds (s+0)
      · exact d 0 (by simp) l h0
      · rw [t0.out l h0]
        apply e l
        intro i hi
        cases i with
        | zero => exact h0
        | succ i =>
          have := hl i (by simpa using hi)
          simpa [Nat.add_assoc, Nat.add_comm 1] using this

/-- Independent code run by one thread. -/
theorem Good.toProg {R D : Set Loc} {c : Code C} {h h'} (g : Good R D c h h') :
    Tr R D c.toProg h () h' := by
  induction g with
  | nil => exact .ret
  | @cons ph c h h1 h' p _ ih =>
    obtain ⟨Rs, Ds, hf, a, b, cc, d, e⟩ := p
    exact seq_tasks Rs Ds _ ph 0 h h1 h' hf (by simpa using a) (by simpa using b)
      (by simpa using cc) (by simpa using d) (by simpa using e) ih

/-- A list of independent tasks is good both as a parallel and as a serial loop. -/
theorem PhaseGood.loop {R D : Set Loc} {ts : List (Task C)} {h h'} (g : PhaseGood R D ts h h')
    (par : Bool) : Good R D (Code.loop par ts) h h' := by
  cases par with
  | true => exact .cons g .nil
  | false =>
    obtain ⟨Rs, Ds, hf, a, b, c, d, e⟩ := g
    simp only [Code.loop, Bool.false_eq_true, if_false]
    -- induction as in `seq_tasks`
    have main : ∀ (ts : List (Task C)) (s : Nat) (h h' : Heap C) (hf : Nat → Heap C),
      (∀ i p, ts[i]? = some p → Tr (Rs (s+i)) (Ds (s+i)) p h () (hf i)) →
      (∀ i j, i ≠ j → i < ts.length → j < ts.length →
        ∀ l, l ∈ Ds (s+i) → l ∉ Rs (s+j) ∪ Ds (s+j)) →
      (∀ i, i < ts.length → Rs (s+i) ⊆ R ∧ Ds (s+i) ⊆ D) →
      (∀ i, i < ts.length → ∀ l ∈ Ds (s+i), h' l = hf i l) →
      (∀ l, (∀ i, i < ts.length → l ∉ Ds (s+i)) → h' l = h l) →
      Good R D (ts.map fun t => [t]) h h' := by
      intro ts
      induction ts with
      | nil =>
        intro s h h' hf _ _ _ _ e
        have : h' = h := by funext l; exact e l (by simp)
        subst this; exact .nil
      | cons t ts ih =>
        intro s h h' hf a b c d e
        have t0 := a 0 t rfl
        have g0 := Good.single (t0.mono (c 0 (by simp)).1 (c 0 (by simp)).2)
        rw [List.map_cons, ← List.singleton_append]
        refine g0.append ?_
        have hfr : ∀ j, ∃ g', ∀ p, ts[j]? = some p →
            Tr (Rs (s+1+j)) (Ds (s+1+j)) p (hf 0) () g' ∧
              ∀ x ∈ Ds (s+1+j), g' x = hf (j+1) x := by
          intro j
          cases hp : ts[j]? with
          | none => exact ⟨h, by simp⟩
          | some p =>
            have hj : j < ts.length := by
              by_contra hc; simp [List.getElem?_eq_none (Nat.le_of_not_lt hc)] at hp
            obtain ⟨n, tj⟩ := a (j+1) p (by simpa using hp)
            obtain ⟨g', t', h1⟩ := tj.frame (hf 0) (by
              intro x hx
              apply t0.out
              intro hx0
              exact b 0 (j+1) (by omega) (by simp) (by simpa using hj) x hx0 hx)
            refine ⟨g', ?_⟩
            rintro q hq; cases hq
            have e1 : s + 1 + j = s + (j+1) := by omega
            rw [e1]
            exact ⟨⟨n, t'⟩, fun x hx => h1 x (Or.inr hx)⟩
        choose gf hgf using hfr
        refine ih (s+1) (hf 0) h' gf ?_ ?_ ?_ ?_ ?_
        · intro i p hp; exact (hgf i p hp).1
        · intro i j hij hi hj
          have := b (i+1) (j+1) (by omega) (by simpa using hi) (by simpa using hj)
          simpa [Nat.add_assoc, Nat.add_comm 1] using this
        · intro i hi
          have := c (i+1) (by simpa using hi)
          simpa [Nat.add_assoc, Nat.add_comm 1] using this
        · intro i hi l hl
          rw [(hgf i ts[i] (by simp [hi])).2 l hl]
          have := d (i+1) (by simpa using hi) l
          rw [this (by simpa [Nat.add_assoc, Nat.add_comm 1] using hl)]
        · intro l hl
          by_cases h0 : l ∈ Ds (s+0)
          · exact d 0 (by simp) l h0
          · rw [t0.out l h0]
            apply e l
            intro i hi
            cases i with
            | zero => exact h0
            | succ i =>
              have := hl i (by simpa using hi)
              simpa [Nat.add_assoc, Nat.add_comm 1] using this
    exact main ts 0 h h' hf (by simpa using a) (by simpa using b)
      (by simpa using c) (by simpa using d) (by simpa using e)

end OTFFT
