/-
Threads that share only memory nobody writes behave as if each ran alone.
-/
import Verif.Model.Threads
import Verif.Proof.Act

namespace OTFFT

variable {C α β : Type}

/-! ### Programs that respect shared memory -/

/-- As `wp`, and no execution writes a cell of `S` or frees a block of `B`. -/
def Act.wpC (S : Set Loc) (B : Set Nat) : Act C α → (α → World C → Prop) → World C → Prop
  | .ret a, Q, w => Q a w
  | .run c k, Q, w => AllSchedF Set.univ Sᶜ (fun h => k.wpC S B Q ⟨h, w.live⟩) (c.start w.heap)
  | .malloc n k, Q, w => (k none).wpC S B Q w ∧
      ∀ b, b ≠ 0 → b ∉ w.live → (k (some b)).wpC S B Q (w.alloc b n)
  | .free b k, Q, w => b ∈ w.live ∧ b ∉ B ∧ k.wpC S B Q (w.free b)

variable {S : Set Loc} {B : Set Nat}

theorem AllSchedF.mono {R D R' D' : Set Loc} {Q Q' : Heap C → Prop} {c : Config C} (a : AllSchedF R D Q c)
    (hR : R ⊆ R') (hD : D ⊆ D') (h : ∀ k, Q k → Q' k) : AllSchedF R' D' Q' c := by
  induction a with
  | intro nu f post _ ih =>
    refine .intro nu (fun t ht l b ha => ?_) (fun hf => h _ (post hf)) ih
    have := f t ht l b ha
    cases b with
    | true => exact hD this
    | false => exact hR this

theorem Act.wpC_bind (m : Act C α) (f : α → Act C β) (Q : β → World C → Prop) :
    ∀ w, (m >>= f).wpC S B Q w = m.wpC S B (fun a w' => (f a).wpC S B Q w') w := by
  show ∀ w, (m.bind f).wpC S B Q w = _
  induction m with
  | ret a => intro w; rfl
  | run c k ih => intro w; simp only [Act.bind, Act.wpC, ih]
  | malloc n k ih => intro w; simp only [Act.bind, Act.wpC, ih]
  | free b k ih => intro w; simp only [Act.bind, Act.wpC, ih]

theorem Act.wpC_mono {m : Act C α} {Q Q' : α → World C → Prop} {w : World C}
    (h : m.wpC S B Q w) (hi : ∀ a w', Q a w' → Q' a w') : m.wpC S B Q' w := by
  induction m generalizing w with
  | ret a => exact hi _ _ h
  | run c k ih => exact AllSchedF.mono h subset_rfl subset_rfl fun hp hk => ih hk
  | malloc n k ih => exact ⟨ih _ h.1, fun b hb hl => ih _ (h.2 b hb hl)⟩
  | free b k ih => exact ⟨h.1, h.2.1, ih h.2.2⟩

theorem Act.wpC_seq {m : Act C α} {f : α → Act C β} {P : α → World C → Prop}
    {Q : β → World C → Prop} {w : World C} (h : m.wpC S B P w) (hf : ∀ a w', P a w' → (f a).wpC S B Q w') :
    (m >>= f).wpC S B Q w := by
  rw [Act.wpC_bind]; exact Act.wpC_mono h hf

theorem Act.wpC_wp {m : Act C α} {Q : α → World C → Prop} {w : World C} (h : m.wpC S B Q w) : m.wp Q w := by
  induction m generalizing w with
  | ret a => exact h
  | run c k ih => exact (AllSchedF.allSched h).mono fun _ hk => ih hk
  | malloc n k ih => exact ⟨ih _ h.1, fun b hb hl => ih _ (h.2 b hb hl)⟩
  | free b k ih => exact ⟨h.1, ih h.2.2⟩

theorem Act.wpC_exec {c : Code C} {w : World C} {R D : Set Loc} {h' : Heap C}
    {Q : Unit → World C → Prop} (g : Good R D c w.heap h') (hD : ∀ l ∈ D, l ∉ S) (hq : Q () ⟨h', w.live⟩) :
    (Act.exec c).wpC S B Q w := by
  refine AllSchedF.mono (g.schedF [] (by simp)) (Set.subset_univ _) hD ?_
  rintro k rfl
  exact hq

/-! ### Heaps that extend one another -/

/-- `h` contains everything `g` contains -/
def Heap.Le (g h : Heap C) : Prop := ∀ l, g l ≠ none → h l = g l

theorem Heap.Le.refl (g : Heap C) : g.Le g := fun _ _ => rfl

theorem TStep.simulate {t t' : Task C} {g g' h : Heap C} (s : TStep t g t' g') (le : g.Le h) :
    ∃ h', TStep t h t' h' ∧ g'.Le h' := by
  cases s with
  | @load _ l v k hv => exact ⟨h, .load (by rw [le l (by simp [hv]), hv]), le⟩
  | @store _ l v k hv =>
    refine ⟨h.set l v, .store (by rw [le l hv]; exact hv), fun l' hl' => ?_⟩
    by_cases e : l' = l
    · subst e; simp
    · rw [Heap.set_ne _ _ e] at hl' ⊢
      rw [Heap.set_ne _ _ e]
      exact le _ hl'

theorem CStep.simulate {ts : List (Task C)} {rest : Code C} {g : Heap C} {c : Config C} {h : Heap C} (s : CStep ⟨ts, rest, g⟩ c)
    (le : g.Le h) : ∃ h', CStep ⟨ts, rest, h⟩ ⟨c.cur, c.rest, h'⟩ ∧ c.heap.Le h' := by
  cases s with
  | task i hi st =>
    obtain ⟨h', st', le'⟩ := st.simulate le
    exact ⟨h', .task i hi st', le'⟩
  | barrier hall => exact ⟨h, .barrier hall, le⟩

/-- executions on the small heap are executions on the large one -/
theorem AllSchedF.record {R D : Set Loc} {Q : Heap C → Prop} {c : Config C} (a : AllSchedF R D Q c) :
    ∀ h, c.heap.Le h → AllSchedF R D (fun g' => Q g' ∧ ∃ d, Reach ⟨c.cur, c.rest, h⟩ d ∧ d.Final ∧ g'.Le d.heap) c := by
  induction a with
  | @intro c nu f post _ ih =>
    intro h le
    refine .intro nu f (fun hf => ⟨post hf, ⟨c.cur, c.rest, h⟩, .refl _, hf, le⟩) fun c' s => ?_
    obtain ⟨h', s', le'⟩ := CStep.simulate (ts := c.cur) (rest := c.rest) (g := c.heap) s le
    refine (ih c' s h' le').mono subset_rfl subset_rfl ?_
    rintro k ⟨q, d, r, fd, led⟩
    exact ⟨q, d, .step s' r, fd, led⟩

/-- `u` has the same blocks as `w` and contains everything `w` contains -/
structure World.Le (w u : World C) : Prop where
  live : u.live = w.live
  heap : w.heap.Le u.heap

theorem World.Le.alloc {w u : World C} (le : w.Le u) (b n : Nat) : (w.alloc b n).Le (u.alloc b n) := by
  refine ⟨by show insert _ _ = insert _ _; rw [le.live], fun l hl => ?_⟩
  show (if l.1 = b then _ else u.heap l) = (if l.1 = b then _ else w.heap l)
  change (if l.1 = b then _ else w.heap l) ≠ none at hl
  by_cases e : l.1 = b
  · rw [if_pos e, if_pos e]
  · rw [if_neg e, if_neg e]; rw [if_neg e] at hl; exact le.heap l hl

theorem World.Le.free {w u : World C} (le : w.Le u) (b : Nat) : (w.free b).Le (u.free b) := by
  refine ⟨by show _ \ _ = _ \ _; rw [le.live], fun l hl => ?_⟩
  show (if l.1 = b then _ else u.heap l) = (if l.1 = b then _ else w.heap l)
  change (if l.1 = b then _ else w.heap l) ≠ none at hl
  by_cases e : l.1 = b
  · rw [if_pos e, if_pos e]
  · rw [if_neg e, if_neg e]; rw [if_neg e] at hl; exact le.heap l hl

/-- executions in the small memory are executions in the large one -/
theorem Act.wpC_record {m : Act C α} {Q : α → World C → Prop} {w u : World C} (h : m.wpC S B Q w) (le : w.Le u) :
    m.wpC S B (fun a w' => Q a w' ∧ ∃ u', m.Runs u a u' ∧ w'.Le u') w := by
  induction m generalizing w u with
  | ret a => exact ⟨h, u, .ret, le⟩
  | run c k ih =>
    refine AllSchedF.mono (AllSchedF.record h u.heap le.heap) subset_rfl subset_rfl ?_
    rintro g' ⟨hk, d, r, fd, led⟩
    refine Act.wpC_mono (ih hk (u := ⟨d.heap, u.live⟩) ⟨le.live, led⟩) ?_
    rintro a w' ⟨q, u', hr, le'⟩
    exact ⟨q, u', .run r fd hr, le'⟩
  | malloc n k ih =>
    refine ⟨Act.wpC_mono (ih none h.1 le) ?_, fun b hb hl => Act.wpC_mono (ih (some b) (h.2 b hb hl) (le.alloc b n)) ?_⟩
    · rintro a w' ⟨q, u', hr, le'⟩; exact ⟨q, u', .mallocFail hr, le'⟩
    · rintro a w' ⟨q, u', hr, le'⟩; exact ⟨q, u', .mallocOk b hb (by rw [le.live]; exact hl) hr, le'⟩
  | free b k ih =>
    refine ⟨h.1, h.2.1, Act.wpC_mono (ih h.2.2 (le.free b)) ?_⟩
    rintro a w' ⟨q, u', hr, le'⟩
    exact ⟨q, u', .free (by rw [le.live]; exact h.1) hr, le'⟩

/-! ### One thread by itself -/

/-- Everything the thread can do from here, in isolation, is fine: no undefined behaviour, no write to `S`, no free of
`B`; it ends with `Q`. -/
inductive Thread.Fine (S : Set Loc) (B : Set Nat) (Q : α → World C → Prop) : Thread C α × World C → Prop where
  | intro {s : Thread C α × World C} (noUB : ¬ s.1.UB s.2)
      (foot : ∀ t ∈ s.1.cur, ∀ l, Prog.access t = some (l, true) → l ∉ S)
      (free : ∀ b k, s.1.Idle → s.1.next = .free b k → b ∉ B)
      (post : ∀ a, s.1.Idle → s.1.next = .ret a → Q a s.2)
      (live : (∃ a, s.1.Idle ∧ s.1.next = .ret a) ∨ ∃ s' : Thread C α × World C, Thread.Step s.1 s.2 s'.1 s'.2)
      (next : ∀ s' : Thread C α × World C, Thread.Step s.1 s.2 s'.1 s'.2 → Thread.Fine S B Q s') : Thread.Fine S B Q s

private theorem idle_noUB {ts : List (Task C)} {rest : Code C} {h : Heap C} (hts : ∀ t ∈ ts, t = .ret ()) :
    ¬ Config.UB ⟨ts, rest, h⟩ := by
  rintro (⟨t, ht, hb⟩ | ⟨i, j, p, q, l, a, b, hij, hi, hj, ha, hb, hab⟩)
  · rw [hts t ht] at hb; cases hb
  · have := hts p (List.mem_of_getElem? hi)
    subst this; simp [Prog.access] at ha

private theorem idle_cstep {ts : List (Task C)} {h : Heap C} {d : Config C} (hts : ∀ t ∈ ts, t = .ret ()) :
    ¬ CStep ⟨ts, [], h⟩ d := by
  intro s
  cases s with
  | task i hi st => rw [hts _ (List.mem_of_getElem? hi)] at st; cases st

/-- progress of running code -/
theorem Config.exists_step {c : Config C} (nu : ¬ c.UB) (hf : ¬ c.Final) : ∃ d, CStep c d := by
  obtain ⟨ts, rest, h⟩ := c
  by_cases hall : ∀ t ∈ ts, t = .ret ()
  · cases rest with
    | nil => exact absurd ⟨hall, rfl⟩ hf
    | cons ph r => exact ⟨_, .barrier hall⟩
  · push Not at hall
    obtain ⟨t, ht, hne⟩ := hall
    obtain ⟨i, hi, rfl⟩ := List.getElem_of_mem ht
    have hi' : ts[i]? = some ts[i] := by simp [hi]
    have hnb : ¬ (ts[i]).Bad h := fun hb => nu (Or.inl ⟨_, ht, hb⟩)
    revert hi' hne hnb
    generalize ts[i] = t
    intro hne hi' hnb
    cases t with
    | ret a => exact absurd rfl hne
    | load l k =>
      by_cases hv : ∃ v, h l = some (some v)
      · obtain ⟨v, hv⟩ := hv; exact ⟨_, .task i hi' (.load hv)⟩
      · push Not at hv; exact absurd (.load hv) hnb
    | store l v k =>
      by_cases hv : h l = none
      · exact absurd (.store hv) hnb
      · exact ⟨_, .task i hi' (.store hv)⟩
    | ub => exact absurd .ub hnb

/-- a thread that runs code and goes on with `k` -/
theorem Thread.fine_code {Q : α → World C → Prop} {k : Act C α} {live : Set Nat} {c : Config C}
    (K : ∀ (ts : List (Task C)) (h : Heap C), (∀ t ∈ ts, t = .ret ()) → k.wpC S B Q ⟨h, live⟩ → Thread.Fine S B Q (⟨ts, [], k⟩, ⟨h, live⟩))
    (a : AllSchedF Set.univ Sᶜ (fun h => k.wpC S B Q ⟨h, live⟩) c) :
    Thread.Fine S B Q (⟨c.cur, c.rest, k⟩, ⟨c.heap, live⟩) := by
  induction a with
  | @intro c nu f post _ ih =>
    by_cases hf : c.Final
    · obtain ⟨ts, rest, h⟩ := c
      obtain ⟨h1, h2⟩ := hf
      cases h2
      exact K ts h h1 (post ⟨h1, rfl⟩)
    · refine .intro ?_ ?_ ?_ ?_ ?_ ?_
      · rintro (h | ⟨h, _⟩)
        · exact nu h
        · exact hf h
      · intro t ht l ha; exact f t ht l true ha
      · intro b k' hi; exact absurd hi hf
      · intro a hi; exact absurd hi hf
      · obtain ⟨d, hd⟩ := Config.exists_step nu hf
        exact Or.inr ⟨(⟨d.cur, d.rest, k⟩, ⟨d.heap, live⟩), .code hd⟩
      · rintro ⟨t', w'⟩ s
        obtain ⟨ts, rest, h⟩ := c
        revert s
        show Thread.Step ⟨ts, rest, k⟩ ⟨h, live⟩ t' w' → _
        intro s
        cases s with
        | code s => exact ih _ s
        | start h1 => exact absurd ⟨h1, rfl⟩ hf
        | mallocFail h1 => exact absurd ⟨h1, rfl⟩ hf
        | mallocOk b h1 => exact absurd ⟨h1, rfl⟩ hf
        | free h1 => exact absurd ⟨h1, rfl⟩ hf

/-- a thread that is between two pieces of code -/
theorem Thread.fine_idle {Q : α → World C → Prop} (m : Act C α) :
    ∀ (ts : List (Task C)) (w : World C), (∀ t ∈ ts, t = .ret ()) → m.wpC S B Q w → Thread.Fine S B Q (⟨ts, [], m⟩, w) := by
  induction m with
  | ret a =>
    intro ts w hts h
    refine .intro ?_ ?_ ?_ ?_ (Or.inl ⟨a, ⟨hts, rfl⟩, rfl⟩) ?_
    · rintro (h | ⟨_, b, k, h, _⟩)
      · exact idle_noUB hts h
      · cases h
    · intro t ht l ha; rw [hts t ht] at ha; cases ha
    · intro b k _ h; cases h
    · intro a' _ e; cases e; exact h
    · rintro ⟨t', w'⟩ s
      revert s
      show Thread.Step ⟨ts, [], .ret a⟩ w t' w' → _
      intro s
      cases s with
      | code s => exact absurd s (idle_cstep hts)
  | run c k ih =>
    intro ts w hts h
    refine .intro ?_ ?_ ?_ ?_ (Or.inr ⟨(⟨[], c, k⟩, w), .start hts⟩) ?_
    · rintro (h | ⟨_, b, k, h, _⟩)
      · exact idle_noUB hts h
      · cases h
    · intro t ht l ha; rw [hts t ht] at ha; cases ha
    · intro b k _ h; cases h
    · intro a' _ e; cases e
    · rintro ⟨t', w'⟩ s
      revert s
      show Thread.Step ⟨ts, [], .run c k⟩ w t' w' → _
      intro s
      cases s with
      | code s => exact absurd s (idle_cstep hts)
      | start => exact Thread.fine_code (c := c.start w.heap) (fun ts h => ih ts ⟨h, w.live⟩) h
  | malloc n k ih =>
    intro ts w hts h
    refine .intro ?_ ?_ ?_ ?_ (Or.inr ⟨(⟨[], [], k none⟩, w), .mallocFail hts⟩) ?_
    · rintro (h | ⟨_, b, k, h, _⟩)
      · exact idle_noUB hts h
      · cases h
    · intro t ht l ha; rw [hts t ht] at ha; cases ha
    · intro b k _ h; cases h
    · intro a' _ e; cases e
    · rintro ⟨t', w'⟩ s
      revert s
      show Thread.Step ⟨ts, [], .malloc n k⟩ w t' w' → _
      intro s
      cases s with
      | code s => exact absurd s (idle_cstep hts)
      | mallocFail => exact ih none [] w (by simp) h.1
      | mallocOk b _ hb hl => exact ih (some b) [] _ (by simp) (h.2 b hb hl)
  | free b k ih =>
    intro ts w hts h
    refine .intro ?_ ?_ ?_ ?_ (Or.inr ⟨(⟨[], [], k⟩, w.free b), .free hts h.1⟩) ?_
    · rintro (h' | ⟨_, b', k', h', h''⟩)
      · exact idle_noUB hts h'
      · cases h'; exact h'' h.1
    · intro t ht l ha; rw [hts t ht] at ha; cases ha
    · intro b' k' _ e; cases e; exact h.2.1
    · intro a' _ e; cases e
    · rintro ⟨t', w'⟩ s
      revert s
      show Thread.Step ⟨ts, [], .free b k⟩ w t' w' → _
      intro s
      cases s with
      | code s => exact absurd s (idle_cstep hts)
      | free => exact ih [] _ (by simp) h.2.2

/-! ### All threads -/

/-- induction over all interleavings of finitely many terminating systems -/
theorem acc_list {σ : Type} (r : σ → σ → Prop) (L : List σ) (h : ∀ s ∈ L, Acc r s) :
    Acc (fun M L : List σ => ∃ (i : Nat) (s s' : σ), L[i]? = some s ∧ r s' s ∧ M = L.set i s') L := by
  induction L with
  | nil => exact .intro _ fun M ⟨i, s, s', h, _⟩ => by simp at h
  | cons a L ih =>
    have ha := h a (by simp)
    have hL := ih fun s hs => h s (by simp [hs])
    clear ih h
    induction ha generalizing L with
    | intro a _ iha =>
      induction hL with
      | intro L hL ihL =>
        refine .intro _ ?_
        rintro M ⟨i, s, s', hs, hr, rfl⟩
        cases i with
        | zero => simp at hs; subst hs; exact iha s' hr L (.intro _ hL)
        | succ i => simp at hs; exact ihL _ ⟨i, s, s', hs, hr, rfl⟩

theorem Thread.Fine.acc {Q : α → World C → Prop} {s : Thread C α × World C} (f : Thread.Fine S B Q s) :
    Acc (fun s' s : Thread C α × World C => Thread.Step s.1 s.2 s'.1 s'.2) s := by
  induction f with
  | intro _ _ _ _ _ _ ih => exact .intro _ ih

/-- Every thread has its own view of the memory `w`: what it may access. Two views overlap only in `S` (cells) and `B`
(blocks), which nobody writes or frees. -/
structure Views (S : Set Loc) (B : Set Nat) (L : List (Thread C α × World C)) (w : World C) : Prop where
  heap : ∀ s ∈ L, s.2.heap.Le w.heap
  live : ∀ s ∈ L, s.2.live ⊆ w.live
  wf : ∀ s ∈ L, s.2.WF
  cells : ∀ (i j : Nat) (s t : Thread C α × World C), i ≠ j → L[i]? = some s → L[j]? = some t → ∀ l, s.2.heap l ≠ none → t.2.heap l ≠ none → l ∈ S
  blocks : ∀ (i j : Nat) (s t : Thread C α × World C), i ≠ j → L[i]? = some s → L[j]? = some t → ∀ b, b ∈ s.2.live → b ∈ t.2.live → b ∈ B

theorem CStep.heap_none {c d : Config C} (s : CStep c d) (l : Loc) : d.heap l = none ↔ c.heap l = none := by
  cases s with
  | task i hi st =>
    cases st with
    | load => exact Iff.rfl
    | @store _ l' v _ hv =>
      by_cases e : l = l'
      · subst e; simp [hv]
      · show Heap.set _ _ _ _ = _ ↔ _
        rw [Heap.set_ne _ _ e]
  | barrier => exact Iff.rfl

/-- a step of the code in the large memory, seen from the small one -/
theorem CStep.project {ts ts' : List (Task C)} {rest rest' : Code C} {g h h' : Heap C} (s : CStep ⟨ts, rest, h⟩ ⟨ts', rest', h'⟩)
    (le : g.Le h) (nu : ¬ Config.UB ⟨ts, rest, g⟩) (foot : ∀ t ∈ ts, ∀ l, Prog.access t = some (l, true) → l ∉ S) :
    ∃ g', CStep ⟨ts, rest, g⟩ ⟨ts', rest', g'⟩ ∧ g'.Le h' ∧
      ∀ k : Heap C, k.Le h → (∀ l, g l ≠ none → k l ≠ none → l ∈ S) → k.Le h' := by
  cases s with
  | barrier hall => exact ⟨g, .barrier hall, le, fun k hk _ => hk⟩
  | @task _ _ _ p p' h' i hi st =>
    have hp := List.mem_of_getElem? hi
    cases st with
    | @load _ l v k hv =>
      have : g l = some (some v) := by
        by_cases e : g l = none
        · exact absurd (Or.inl ⟨_, hp, .load (by simp [e])⟩) nu
        · rw [← le l e, hv]
      exact ⟨g, .task i hi (.load this), le, fun k hk _ => hk⟩
    | @store _ l v _ hv =>
      have hl : g l ≠ none := fun e => nu (Or.inl ⟨_, hp, .store e⟩)
      refine ⟨g.set l v, .task i hi (.store hl), fun l' hl' => ?_, fun k hk hS l' hl' => ?_⟩
      · by_cases e : l' = l
        · subst e; simp
        · rw [Heap.set_ne _ _ e] at hl' ⊢
          rw [Heap.set_ne _ _ e]
          exact le _ hl'
      · by_cases e : l' = l
        · subst e; exact absurd (hS _ hl hl') (foot _ hp _ rfl)
        · rw [Heap.set_ne _ _ e]
          exact hk _ hl'

theorem Views.set {L : List (Thread C α × World C)} {w w' : World C} (V : Views S B L w) {i : Nat} {s s' : Thread C α × World C}
    (hi : L[i]? = some s)
    (h1 : s'.2.heap.Le w'.heap) (h2 : s'.2.live ⊆ w'.live) (h3 : s'.2.WF)
    (h4 : ∀ j t, j ≠ i → L[j]? = some t → t.2.heap.Le w'.heap ∧ t.2.live ⊆ w'.live)
    (h5 : ∀ j t, j ≠ i → L[j]? = some t → ∀ l, s'.2.heap l ≠ none → t.2.heap l ≠ none → l ∈ S)
    (h6 : ∀ j t, j ≠ i → L[j]? = some t → ∀ b, b ∈ s'.2.live → b ∈ t.2.live → b ∈ B) : Views S B (L.set i s') w' := by
  have hil : i < L.length := by
    by_contra hc; simp [List.getElem?_eq_none (Nat.le_of_not_lt hc)] at hi
  have mem : ∀ t ∈ L.set i s', t = s' ∨ ∃ j, j ≠ i ∧ L[j]? = some t := by
    intro t ht
    obtain ⟨j, hj, rfl⟩ := List.getElem_of_mem ht
    by_cases e : j = i
    · subst e; left; simp
    · right
      refine ⟨j, e, ?_⟩
      rw [List.getElem_set_ne (Ne.symm e)]
      simp at hj
      simp [hj]
  have get : ∀ j t, (L.set i s')[j]? = some t → (j = i ∧ t = s') ∨ (j ≠ i ∧ L[j]? = some t) := by
    intro j t ht
    by_cases e : j = i
    · subst e; left; simp [hil] at ht; exact ⟨rfl, ht.symm⟩
    · right; rw [List.getElem?_set_ne (Ne.symm e)] at ht; exact ⟨e, ht⟩
  constructor
  · intro t ht
    rcases mem t ht with rfl | ⟨j, hj, hjt⟩
    · exact h1
    · exact (h4 j t hj hjt).1
  · intro t ht
    rcases mem t ht with rfl | ⟨j, hj, hjt⟩
    · exact h2
    · exact (h4 j t hj hjt).2
  · intro t ht
    rcases mem t ht with rfl | ⟨j, hj, hjt⟩
    · exact h3
    · exact V.wf t (List.mem_of_getElem? hjt)
  · intro j k a b hjk ha hb l hla hlb
    rcases get j a ha with ⟨rfl, rfl⟩ | ⟨hj, ha'⟩ <;> rcases get k b hb with ⟨e, rfl⟩ | ⟨hk, hb⟩
    · exact absurd e.symm hjk
    · exact h5 k b hk hb l hla hlb
    · exact h5 j a hj ha' l hlb hla
    · exact V.cells j k a b hjk ha' hb l hla hlb
  · intro j k a b hjk ha hb l hla hlb
    rcases get j a ha with ⟨rfl, rfl⟩ | ⟨hj, ha'⟩ <;> rcases get k b hb with ⟨e, rfl⟩ | ⟨hk, hb⟩
    · exact absurd e.symm hjk
    · exact h6 k b hk hb l hla hlb
    · exact h6 j a hj ha' l hlb hla
    · exact V.blocks j k a b hjk ha' hb l hla hlb

/-- What the memory `w` has in common with the memory `w0` before the threads were started, `B` being the blocks
allocated then: these blocks are still allocated, all others belong to one of the threads, and cells nobody may write
are unchanged. -/
structure Frame (S : Set Loc) (B : Set Nat) (L : List (Thread C α × World C)) (w0 w : World C) : Prop where
  wf : w.WF
  base : B ⊆ w.live
  views : ∀ s ∈ L, B ⊆ s.2.live
  cover : ∀ b ∈ w.live, b ∈ B ∨ ∃ s ∈ L, b ∈ s.2.live
  same : ∀ l : Loc, l.1 ∈ B → (l ∈ S ∨ ∀ s ∈ L, s.2.heap l = none) → w.heap l = w0.heap l

theorem Frame.set {L : List (Thread C α × World C)} {w0 w w' : World C} (V : Frame S B L w0 w) {i : Nat}
    {s s' : Thread C α × World C} (hi : L[i]? = some s) (h1 : w'.WF) (h2 : B ⊆ w'.live) (h3 : B ⊆ s'.2.live)
    (h4 : ∀ b ∈ w'.live, b ∈ w.live ∨ b ∈ s'.2.live) (h5 : ∀ b ∈ w'.live, b ∈ s.2.live → b ∈ s'.2.live)
    (h6 : ∀ l : Loc, l.1 ∈ B → (l ∈ S ∨ s.2.heap l = none) → w'.heap l = w.heap l)
    (h7 : ∀ l : Loc, l.1 ∈ B → s'.2.heap l = none → s.2.heap l = none) : Frame S B (L.set i s') w0 w' := by
  have hil : i < L.length := by
    by_contra hc; simp [List.getElem?_eq_none (Nat.le_of_not_lt hc)] at hi
  have hin : s' ∈ L.set i s' := by
    rw [List.mem_iff_getElem?]; exact ⟨i, by simp [hil]⟩
  have hs : L[i] = s := by simpa [hil] using hi
  have other : ∀ t ∈ L, t = s ∨ t ∈ L.set i s' := by
    intro t ht
    obtain ⟨j, hj, rfl⟩ := List.getElem_of_mem ht
    by_cases e : j = i
    · subst e; exact Or.inl hs
    · right
      rw [List.mem_iff_getElem?]
      exact ⟨j, by rw [List.getElem?_set_ne (Ne.symm e)]; simp [hj]⟩
  refine ⟨h1, h2, ?_, ?_, ?_⟩
  · intro t ht
    rcases List.mem_or_eq_of_mem_set ht with h | rfl
    · exact V.views t h
    · exact h3
  · intro b hb
    rcases h4 b hb with h | h
    · rcases V.cover b h with h | ⟨t, ht, h⟩
      · exact Or.inl h
      · rcases other t ht with rfl | ht'
        · exact Or.inr ⟨s', hin, h5 b hb h⟩
        · exact Or.inr ⟨t, ht', h⟩
    · exact Or.inr ⟨s', hin, h⟩
  · intro l hl hc
    have hc' : l ∈ S ∨ ∀ t ∈ L, t.2.heap l = none := by
      refine hc.imp id fun h t ht => ?_
      rcases other t ht with rfl | ht'
      · exact h7 l hl (h _ hin)
      · exact h t ht'
    rw [h6 l hl (hc'.imp id fun h => h s (List.mem_of_getElem? hi)), V.same l hl hc']

/-- a step of a thread in the process is a step in its own view -/
theorem Views.step {L : List (Thread C α × World C)} {w0 w w' : World C} (V : Views S B L w) (G : Frame S B L w0 w) {i : Nat}
    {s : Thread C α × World C} {Q : α → World C → Prop} {t' : Thread C α} (hi : L[i]? = some s) (hf : Thread.Fine S B Q s)
    (st : Thread.Step s.1 w t' w') :
    ∃ v', Thread.Step s.1 s.2 t' v' ∧ Views S B (L.set i (t', v')) w' ∧ Frame S B (L.set i (t', v')) w0 w' := by
  have hm := List.mem_of_getElem? hi
  have hle := V.heap s hm
  have hlive := V.live s hm
  have hwf := V.wf s hm
  have hbase := G.views s hm
  cases hf with
  | intro nu foot fr _ _ _ =>
  obtain ⟨t, v⟩ := s
  obtain ⟨h, live⟩ := w
  obtain ⟨g, lv⟩ := v
  cases st with
  | @code cur rest next _ _ cur' rest' h' cs =>
    obtain ⟨g', cs', le', oth⟩ := cs.project (S := S) hle (fun hu => nu (Or.inl hu)) foot
    have none_iff : ∀ l, g' l = none ↔ g l = none := fun l => cs'.heap_none l
    have hnone : ∀ l, h' l = none ↔ h l = none := fun l => cs.heap_none l
    refine ⟨⟨g', lv⟩, .code cs', V.set hi le' hlive ⟨hwf.null, fun l hl => (none_iff l).2 (hwf.dead l hl)⟩ ?_ ?_ ?_,
      G.set hi ⟨G.wf.null, fun l hl => (hnone l).2 (G.wf.dead l hl)⟩ G.base hbase (fun b hb => Or.inl hb) (fun b _ hb => hb) ?_ ?_⟩
    · intro j u hj hu
      refine ⟨oth _ (V.heap u (List.mem_of_getElem? hu)) fun l h1 h2 => V.cells i j _ u (Ne.symm hj) hi hu l h1 h2,
        V.live u (List.mem_of_getElem? hu)⟩
    · intro j u hj hu l h1 h2
      exact V.cells i j _ u (Ne.symm hj) hi hu l (fun e => h1 ((none_iff l).2 e)) h2
    · intro j u hj hu b h1 h2
      exact V.blocks i j _ u (Ne.symm hj) hi hu b h1 h2
    · intro l _ hc
      show h' l = h l
      cases cs with
      | barrier => rfl
      | task j hj ts =>
        cases ts with
        | load => rfl
        | @store _ l' v' _ hv =>
          refine Heap.set_ne _ _ ?_
          rintro rfl
          have hp := List.mem_of_getElem? hj
          rcases hc with hc | hc
          · exact foot _ hp _ rfl hc
          · exact nu (Or.inl (Or.inl ⟨_, hp, .store hc⟩))
    · intro l _ hn; exact (none_iff l).1 hn
  | start hd =>
    exact ⟨⟨g, lv⟩, .start hd, V.set hi hle hlive hwf
      (fun j u _ hu => ⟨V.heap u (List.mem_of_getElem? hu), V.live u (List.mem_of_getElem? hu)⟩)
      (fun j u hj hu l h1 h2 => V.cells i j _ u (Ne.symm hj) hi hu l h1 h2)
      (fun j u hj hu b h1 h2 => V.blocks i j _ u (Ne.symm hj) hi hu b h1 h2),
      G.set hi G.wf G.base hbase (fun b hb => Or.inl hb) (fun b _ hb => hb) (fun _ _ _ => rfl) (fun _ _ h => h)⟩
  | mallocFail hd =>
    exact ⟨⟨g, lv⟩, .mallocFail hd, V.set hi hle hlive hwf
      (fun j u _ hu => ⟨V.heap u (List.mem_of_getElem? hu), V.live u (List.mem_of_getElem? hu)⟩)
      (fun j u hj hu l h1 h2 => V.cells i j _ u (Ne.symm hj) hi hu l h1 h2)
      (fun j u hj hu b h1 h2 => V.blocks i j _ u (Ne.symm hj) hi hu b h1 h2),
      G.set hi G.wf G.base hbase (fun b hb => Or.inl hb) (fun b _ hb => hb) (fun _ _ _ => rfl) (fun _ _ h => h)⟩
  | @mallocOk cur n k _ b hd hb hl =>
    have hl' : b ∉ lv := fun h => hl (hlive h)
    have oth : ∀ j u, j ≠ i → L[j]? = some u → b ∉ u.2.live := fun j u _ hu h => hl (V.live u (List.mem_of_getElem? hu) h)
    refine ⟨World.alloc ⟨g, lv⟩ b n, .mallocOk b hd hb hl', V.set hi ?_ ?_ ?_ ?_ ?_ ?_, G.set hi ?_ ?_ ?_ ?_ ?_ ?_ ?_⟩
    · intro l hn
      change (if l.1 = b then _ else g l) ≠ none at hn
      show (if l.1 = b then _ else h l) = (if l.1 = b then _ else g l)
      by_cases e : l.1 = b
      · rw [if_pos e, if_pos e]
      · rw [if_neg e] at hn; rw [if_neg e, if_neg e]; exact hle l hn
    · exact Set.insert_subset_insert hlive
    · refine ⟨fun h0 => ?_, fun l hn => ?_⟩
      · rcases h0 with h0 | h0
        · exact hb h0.symm
        · exact hwf.null h0
      · show (if l.1 = b then _ else g l) = none
        rw [if_neg (fun e => hn (Or.inl e))]
        exact hwf.dead l fun h => hn (Or.inr h)
    · intro j u hj hu
      refine ⟨fun l hn => ?_, (V.live u (List.mem_of_getElem? hu)).trans (Set.subset_insert _ _)⟩
      show (if l.1 = b then _ else h l) = _
      rw [if_neg]
      · exact V.heap u (List.mem_of_getElem? hu) l hn
      rintro rfl
      exact hn ((V.wf u (List.mem_of_getElem? hu)).dead l (oth j u hj hu))
    · intro j u hj hu l h1 h2
      change (if l.1 = b then _ else g l) ≠ none at h1
      by_cases e : l.1 = b
      · exact absurd ((V.wf u (List.mem_of_getElem? hu)).dead l (e ▸ oth j u hj hu)) h2
      · rw [if_neg e] at h1; exact V.cells i j _ u (Ne.symm hj) hi hu l h1 h2
    · intro j u hj hu c h1 h2
      rcases h1 with rfl | h1
      · exact absurd h2 (oth j u hj hu)
      · exact V.blocks i j _ u (Ne.symm hj) hi hu c h1 h2
    · refine ⟨fun h0 => ?_, fun l hn => ?_⟩
      · rcases h0 with h0 | h0
        · exact hb h0.symm
        · exact G.wf.null h0
      · show (if l.1 = b then _ else h l) = none
        rw [if_neg (fun e => hn (Or.inl e))]
        exact G.wf.dead l fun h => hn (Or.inr h)
    · exact G.base.trans (Set.subset_insert _ _)
    · exact hbase.trans (Set.subset_insert _ _)
    · rintro c (rfl | h)
      · exact Or.inr (Or.inl rfl)
      · exact Or.inl h
    · intro c _ h; exact Or.inr h
    · intro l hB _
      show (if l.1 = b then _ else h l) = h l
      rw [if_neg]
      rintro rfl
      exact hl (G.base hB)
    · intro l hB hn
      change (if l.1 = b then _ else g l) = none at hn
      rwa [if_neg] at hn
      rintro rfl
      exact hl (G.base hB)
  | @free cur b k _ hd hl =>
    have hlv : b ∈ lv := by
      by_contra hc
      exact nu (Or.inr ⟨⟨hd, rfl⟩, b, k, rfl, hc⟩)
    have hB : b ∉ B := fr b k ⟨hd, rfl⟩ rfl
    have oth : ∀ j u, j ≠ i → L[j]? = some u → b ∉ u.2.live := fun j u hj hu h => hB (V.blocks i j _ u (Ne.symm hj) hi hu b hlv h)
    refine ⟨World.free ⟨g, lv⟩ b, .free hd hlv, V.set hi ?_ ?_ ?_ ?_ ?_ ?_, G.set hi ?_ ?_ ?_ ?_ ?_ ?_ ?_⟩
    · intro l hn
      change (if l.1 = b then none else g l) ≠ none at hn
      show (if l.1 = b then none else h l) = (if l.1 = b then none else g l)
      by_cases e : l.1 = b
      · rw [if_pos e, if_pos e]
      · rw [if_neg e] at hn; rw [if_neg e, if_neg e]; exact hle l hn
    · exact Set.sdiff_subset_sdiff_left hlive
    · refine ⟨fun h0 => hwf.null h0.1, fun l hn => ?_⟩
      show (if l.1 = b then none else g l) = none
      split
      · rfl
      · rename_i e; exact hwf.dead l fun h => hn ⟨h, e⟩
    · intro j u hj hu
      refine ⟨fun l hn => ?_, fun c hc => ⟨V.live u (List.mem_of_getElem? hu) hc, fun e => oth j u hj hu (e ▸ hc)⟩⟩
      show (if l.1 = b then none else h l) = _
      rw [if_neg]
      · exact V.heap u (List.mem_of_getElem? hu) l hn
      rintro rfl
      exact hn ((V.wf u (List.mem_of_getElem? hu)).dead l (oth j u hj hu))
    · intro j u hj hu l h1 h2
      change (if l.1 = b then none else g l) ≠ none at h1
      by_cases e : l.1 = b
      · rw [if_pos e] at h1; exact absurd rfl h1
      · rw [if_neg e] at h1; exact V.cells i j _ u (Ne.symm hj) hi hu l h1 h2
    · intro j u hj hu c h1 h2
      exact V.blocks i j _ u (Ne.symm hj) hi hu c h1.1 h2
    · refine ⟨fun h0 => G.wf.null h0.1, fun l hn => ?_⟩
      show (if l.1 = b then none else h l) = none
      split
      · rfl
      · rename_i e; exact G.wf.dead l fun h => hn ⟨h, e⟩
    · exact fun c hc => ⟨G.base hc, fun e => hB (e ▸ hc)⟩
    · exact fun c hc => ⟨hbase hc, fun e => hB (e ▸ hc)⟩
    · exact fun c hc => Or.inl hc.1
    · exact fun c hc h => ⟨h, hc.2⟩
    · intro l hlB _
      show (if l.1 = b then none else h l) = h l
      rw [if_neg (fun e : l.1 = b => hB (e ▸ hlB))]
    · intro l hlB hn
      change (if l.1 = b then none else g l) = none at hn
      rwa [if_neg (fun e : l.1 = b => hB (e ▸ hlB))] at hn

theorem Views.noUB {L : List (Thread C α × World C)} {w : World C} (V : Views S B L w)
    {Q : Nat → α → World C → Prop} (hf : ∀ i s, L[i]? = some s → Thread.Fine S B (Q i) s) :
    ¬ Process.UB ⟨L.map Prod.fst, w⟩ := by
  have alloc : ∀ (i : Nat) (s : Thread C α × World C), L[i]? = some s → ∀ q ∈ s.1.cur, ∀ l a, Prog.access q = some (l, a) → s.2.heap l ≠ none := by
    intro i s hi q hq l a ha hn
    cases hf i s hi with
    | intro nu _ _ _ _ _ =>
      refine nu (Or.inl (Or.inl ⟨q, hq, ?_⟩))
      cases q with
      | ret => cases ha
      | ub => cases ha
      | load l' k => cases ha; exact .load (by simp [hn])
      | store l' v k => cases ha; exact .store hn
  have get : ∀ (i : Nat) (t : Thread C α), (L.map Prod.fst)[i]? = some t → ∃ s : Thread C α × World C, L[i]? = some s ∧ s.1 = t := by
    intro i t h
    rw [List.getElem?_map] at h
    obtain ⟨s, h1, h2⟩ := Option.map_eq_some_iff.1 h
    exact ⟨s, h1, h2⟩
  rintro (⟨t, ht, hu⟩ | ⟨i, j, t, u, p, q, l, a, b, hij, hi, hj, hp, hq, ha, hb, hab⟩ | ⟨i, j, t, u, q, l, a, k, hij, hi, hj, hd, hk, hq, ha⟩)
  · obtain ⟨i, hi⟩ := List.mem_iff_getElem?.1 ht
    obtain ⟨s, hs, rfl⟩ := get i t hi
    cases hf i s hs with
    | intro nu _ _ _ _ _ =>
      refine nu ?_
      have le := V.heap s (List.mem_of_getElem? hs)
      rcases hu with (⟨p, hp, hb⟩ | hr) | ⟨hd, b, k, hk, hb⟩
      · refine Or.inl (Or.inl ⟨p, hp, ?_⟩)
        cases hb with
        | ub => exact .ub
        | load hv => exact .load fun v hv' => hv v ((le _ (by intro e; exact absurd (hv'.symm.trans e) (by simp))).trans hv')
        | store hv =>
          refine .store ?_
          by_contra hc
          exact hc ((le _ hc).symm.trans hv)
      · exact Or.inl (Or.inr hr)
      · exact Or.inr ⟨hd, b, k, hk, fun h => hb (V.live s (List.mem_of_getElem? hs) h)⟩
  · obtain ⟨s, hs, rfl⟩ := get i t hi
    obtain ⟨r, hr, rfl⟩ := get j u hj
    have hS := V.cells i j s r hij hs hr l (alloc i s hs p hp l a ha) (alloc j r hr q hq l b hb)
    rcases hab with rfl | rfl
    · cases hf i s hs with
      | intro _ foot _ _ _ _ => exact foot p hp l ha hS
    · cases hf j r hr with
      | intro _ foot _ _ _ _ => exact foot q hq l hb hS
  · obtain ⟨s, hs, rfl⟩ := get i t hi
    obtain ⟨r, hr, rfl⟩ := get j u hj
    have h1 : l.1 ∈ r.2.live := by
      by_contra hc
      exact alloc j r hr q hq l a ha ((V.wf r (List.mem_of_getElem? hr)).dead l hc)
    cases hf i s hs with
    | intro nu _ fr _ _ _ =>
      have h2 : l.1 ∈ s.2.live := by
        by_contra hc
        exact nu (Or.inr ⟨hd, _, k, hk, hc⟩)
      exact fr _ k hd hk (V.blocks i j s r hij hs hr _ h2 h1)

theorem Thread.Step.progress {t t' : Thread C α} {v v' w : World C} (s : Thread.Step t v t' v') (le : v.heap.Le w.heap)
    (hl : v.live ⊆ w.live) : ∃ t'' w', Thread.Step t w t'' w' := by
  cases s with
  | code cs =>
    obtain ⟨h', cs', _⟩ := cs.simulate le
    exact ⟨_, ⟨h', w.live⟩, .code cs'⟩
  | start hd => exact ⟨_, w, .start hd⟩
  | mallocFail hd => exact ⟨_, w, .mallocFail hd⟩
  | mallocOk b hd => exact ⟨_, w, .mallocFail hd⟩
  | free hd hb => exact ⟨_, _, .free hd (hl hb)⟩

theorem exists_results {σ : Type} {P : σ → α → Prop} (L : List σ) (h : ∀ s ∈ L, ∃ a, P s a) :
    ∃ as : List α, L.length = as.length ∧ ∀ (i : Nat) (s : σ) (a : α), L[i]? = some s → as[i]? = some a → P s a := by
  induction L with
  | nil => exact ⟨[], rfl, by simp⟩
  | cons s L ih =>
    obtain ⟨as, h1, h2⟩ := ih fun r hr => h r (by simp [hr])
    obtain ⟨a, ha⟩ := h s (by simp)
    refine ⟨a :: as, by simp [h1], fun i r b hr hb => ?_⟩
    cases i with
    | zero => simp at hr hb; subst hr hb; exact ha
    | succ i => simp at hr hb; exact h2 i r b hr hb

/-- The main theorem: threads that are fine in isolation are fine together. -/
theorem Process.all_of_views {Q : Nat → α → World C → Prop} {w0 : World C} :
    ∀ (L : List (Thread C α × World C)) (w : World C), Views S B L w → Frame S B L w0 w →
      (∀ i s, L[i]? = some s → Thread.Fine S B (Q i) s) →
      Process.All (fun as w' => ∃ vs : List (World C), vs.length = as.length ∧
        Views S B (vs.map fun v => ((⟨[], [], .ret ()⟩ : Thread C Unit), v)) w' ∧
        Frame S B (vs.map fun v => ((⟨[], [], .ret ()⟩ : Thread C Unit), v)) w0 w' ∧
        ∀ i a v, as[i]? = some a → vs[i]? = some v → Q i a v) ⟨L.map Prod.fst, w⟩ := by
  intro L
  by_cases hL : ∀ s ∈ L, Acc (fun s' s : Thread C α × World C => Thread.Step s.1 s.2 s'.1 s'.2) s
  swap
  · intro w _ _ hf
    exfalso
    apply hL
    intro s hs
    obtain ⟨i, hi⟩ := List.mem_iff_getElem?.1 hs
    exact (hf i s hi).acc
  have := acc_list _ L hL
  clear hL
  induction this with
  | intro L _ ih =>
  intro w V G hf
  have get : ∀ (i : Nat) (t : Thread C α), (L.map Prod.fst)[i]? = some t → ∃ s : Thread C α × World C, L[i]? = some s ∧ s.1 = t := by
    intro i t h
    rw [List.getElem?_map] at h
    obtain ⟨s, h1, h2⟩ := Option.map_eq_some_iff.1 h
    exact ⟨s, h1, h2⟩
  refine .intro (V.noUB hf) ?_ ?_ ?_
  · rintro as ⟨hlen, hend⟩
    simp only [List.length_map] at hlen
    have gets : ∀ (i : Nat) (s : Thread C Unit × World C), (L.map fun s => ((⟨[], [], .ret ()⟩ : Thread C Unit), s.2))[i]? = some s →
        ∃ r : Thread C α × World C, L[i]? = some r ∧ r.2 = s.2 := by
      intro i s h
      rw [List.getElem?_map] at h
      obtain ⟨r, h1, rfl⟩ := Option.map_eq_some_iff.1 h
      exact ⟨r, h1, rfl⟩
    have mems : ∀ s ∈ (L.map fun s => ((⟨[], [], .ret ()⟩ : Thread C Unit), s.2)), ∃ r ∈ L, r.2 = s.2 := by
      intro s h
      obtain ⟨r, h1, rfl⟩ := List.mem_map.1 h
      exact ⟨r, h1, rfl⟩
    refine ⟨L.map Prod.snd, by simp [hlen], ?_, ?_, ?_⟩
    · rw [List.map_map]
      refine ⟨?_, ?_, ?_, ?_, ?_⟩
      · intro s hs; obtain ⟨r, hr, e⟩ := mems s hs; rw [← e]; exact V.heap r hr
      · intro s hs; obtain ⟨r, hr, e⟩ := mems s hs; rw [← e]; exact V.live r hr
      · intro s hs; obtain ⟨r, hr, e⟩ := mems s hs; rw [← e]; exact V.wf r hr
      · intro i j s t hij hs ht
        obtain ⟨r, hr, e⟩ := gets i s hs
        obtain ⟨r', hr', e'⟩ := gets j t ht
        rw [← e, ← e']; exact V.cells i j r r' hij hr hr'
      · intro i j s t hij hs ht
        obtain ⟨r, hr, e⟩ := gets i s hs
        obtain ⟨r', hr', e'⟩ := gets j t ht
        rw [← e, ← e']; exact V.blocks i j r r' hij hr hr'
    · rw [List.map_map]
      refine ⟨G.wf, G.base, ?_, ?_, ?_⟩
      · intro s hs; obtain ⟨r, hr, e⟩ := mems s hs; rw [← e]; exact G.views r hr
      · intro b hb
        refine (G.cover b hb).imp id ?_
        rintro ⟨s, hs, h⟩
        exact ⟨_, List.mem_map.2 ⟨s, hs, rfl⟩, h⟩
      · intro l hl hc
        refine G.same l hl (hc.imp id fun h s hs => h _ (List.mem_map.2 ⟨s, hs, rfl⟩))
    · intro i a v ha hv
      rw [List.getElem?_map] at hv
      obtain ⟨s, hs, rfl⟩ := Option.map_eq_some_iff.1 hv
      obtain ⟨hd, hk⟩ := hend i s.1 a (by simp [hs]) ha
      cases hf i s hs with
      | intro _ _ _ post _ _ => exact post a hd hk
  · by_cases hall : ∀ s ∈ L, ∃ a, s.1.Idle ∧ s.1.next = .ret a
    · obtain ⟨as, h1, h2⟩ := exists_results L hall
      refine Or.inl ⟨as, by simpa using h1, fun i t a ht ha => ?_⟩
      obtain ⟨s, hs, rfl⟩ := get i t ht
      exact h2 i s a hs ha
    · right
      push Not at hall
      obtain ⟨s, hs, hn⟩ := hall
      obtain ⟨i, hi⟩ := List.mem_iff_getElem?.1 hs
      cases hf i s hi with
      | intro _ _ _ _ lv _ =>
        rcases lv with ⟨a, hd, hk⟩ | ⟨s', st⟩
        · exact absurd hk (hn a hd)
        · obtain ⟨t', w', st'⟩ := Thread.Step.progress st (V.heap s hs) (V.live s hs)
          exact ⟨_, .thread i (by simp [hi]) st'⟩
  · intro s' hs
    cases hs with
    | @thread _ _ t t' w' i hi st =>
      obtain ⟨s, hs, rfl⟩ := get i t hi
      obtain ⟨v', st', V', G'⟩ := V.step G hs (hf i s hs) st
      have e : (L.map Prod.fst).set i t' = (L.set i (t', v')).map Prod.fst := by rw [List.map_set]
      rw [e]
      refine ih (L.set i (t', v')) ⟨i, s, (t', v'), hs, st', rfl⟩ w' V' G' ?_
      intro j r hr
      have hil : i < L.length := by
        by_contra hc; simp [List.getElem?_eq_none (Nat.le_of_not_lt hc)] at hs
      by_cases e : j = i
      · subst e
        simp [hil] at hr
        subst hr
        cases hf j s hs with
        | intro _ _ _ _ _ next => exact next _ st'
      · rw [List.getElem?_set_ne (Ne.symm e)] at hr
        exact hf j r hr

end OTFFT
