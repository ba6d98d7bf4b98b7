/-
Code that always runs into undefined behaviour because of what the memory contains when it starts.
-/
import Verif.Proof.Overflow

namespace OTFFT

variable {C : Type}

/-! ### sequential composition -/

theorem AlwaysUB.append {c : Config C} (a : AlwaysUB c) (d : Code C) : AlwaysUB ⟨c.cur, c.rest ++ d, c.heap⟩ := by
  induction a with
  | now h => exact .now h
  | @later c hs hall ih =>
    obtain ⟨ts, rest, h⟩ := c
    have hnf : rest = [] → ¬ ∀ t ∈ ts, t = .ret () := by
      rintro rfl hf
      obtain ⟨e, s⟩ := hs
      cases s with
      | task i hi st =>
        rw [hf _ (List.mem_iff_getElem?.2 ⟨i, hi⟩)] at st
        cases st
    refine .later ?_ ?_
    · obtain ⟨e, s⟩ := hs
      cases s with
      | task i hi st => exact ⟨_, .task i hi st⟩
      | barrier hb => exact ⟨_, .barrier hb⟩
    · intro e s
      cases rest with
      | nil =>
        cases s with
        | task i hi st => exact ih _ (.task i hi st)
        | barrier hb => exact absurd hb (hnf rfl)
      | cons ph rest =>
        cases s with
        | task i hi st => exact ih _ (.task i hi st)
        | barrier hb => exact ih _ (.barrier hb)

theorem AlwaysUB.left {c d : Code C} {h : Heap C} (a : AlwaysUB (c.start h)) : AlwaysUB (Code.start (c ++ d) h) :=
  a.append d

/-- finished tasks do not matter -/
theorem AlwaysUB.finished {d : Code C} {h : Heap C} {ts : List (Task C)} (hf : ∀ t ∈ ts, t = .ret ())
    (a : AlwaysUB (d.start h)) : AlwaysUB ⟨ts, d, h⟩ := by
  cases a with
  | now hu =>
    rcases hu with ⟨t, ht, _⟩ | ⟨i, _, p, _, _, _, _, _, hi, _⟩
    · exact absurd ht (List.not_mem_nil)
    · simp [Code.start] at hi
  | later hs hall =>
    cases d with
    | nil =>
      obtain ⟨e, s⟩ := hs
      cases s with
      | task i hi _ => simp at hi
    | cons ph d =>
      refine .later ⟨_, .barrier hf⟩ fun e s => ?_
      cases s with
      | task i hi st =>
        rw [hf _ (List.mem_iff_getElem?.2 ⟨i, hi⟩)] at st
        cases st
      | barrier hb => exact hall _ (.barrier (by simp))

theorem AlwaysUB.after {c : Config C} {h' : Heap C} {d : Code C} (s : AllSched (fun k => k = h') c)
    (a : AlwaysUB (d.start h')) : AlwaysUB ⟨c.cur, c.rest ++ d, c.heap⟩ := by
  induction s with
  | @intro c noUB post next ih =>
    obtain ⟨ts, rest, h⟩ := c
    by_cases hf : (∀ t ∈ ts, t = .ret ()) ∧ rest = []
    · obtain ⟨hf, rfl⟩ := hf
      have e : h = h' := post ⟨hf, rfl⟩
      subst e
      exact a.finished hf
    · refine .later ?_ ?_
      · rcases Config.progress ⟨ts, rest, h⟩ with hp | hp | ⟨e, s⟩
        · exact absurd hp hf
        · exact absurd hp noUB
        · cases s with
          | task i hi st => exact ⟨_, .task i hi st⟩
          | barrier hb => exact ⟨_, .barrier hb⟩
      · intro e s
        cases rest with
        | nil =>
          cases s with
          | task i hi st => exact ih _ (.task i hi st)
          | barrier hb => exact absurd ⟨hb, rfl⟩ hf
        | cons ph rest =>
          cases s with
          | task i hi st => exact ih _ (.task i hi st)
          | barrier hb => exact ih _ (.barrier hb)

/-- good code, then code that is lost from the memory the good code leaves -/
theorem Good.alwaysUB {R D : Set Loc} {c d : Code C} {h h' : Heap C} (g : Good R D c h h')
    (a : AlwaysUB (d.start h')) : AlwaysUB (Code.start (c ++ d) h) :=
  AlwaysUB.after (c := c.start h) g.allSched a

/-! ### cells without a value -/

/-- every path through the task ends in undefined behaviour, as long as the cells `N` have no value and the cells
`M` do not exist -/
inductive Prog.Stuck (N M : Set Loc) : Task C → Prop where
  | ub : Prog.Stuck N M .ub
  | read {l k} : l ∈ N → Prog.Stuck N M (.load l k)
  | write {l v k} : l ∈ M → Prog.Stuck N M (.store l v k)
  | load {l k} : (∀ v, Prog.Stuck N M (k v)) → Prog.Stuck N M (.load l k)
  | store {l v k} : Prog.Stuck N M k → Prog.Stuck N M (.store l v k)

/-- no path through the task writes to `N` -/
inductive Prog.Avoids (N : Set Loc) : Task C → Prop where
  | ret {a} : Prog.Avoids N (.ret a)
  | ub : Prog.Avoids N .ub
  | load {l k} : (∀ v, Prog.Avoids N (k v)) → Prog.Avoids N (.load l k)
  | store {l v k} : l ∉ N → Prog.Avoids N k → Prog.Avoids N (.store l v k)

structure Config.Stuck (N M : Set Loc) (c : Config C) : Prop where
  noVal : ∀ l ∈ N, ∀ v, c.heap l ≠ some (some v)
  dead : ∀ l ∈ M, c.heap l = none
  cur : ∀ t ∈ c.cur, t.Avoids N
  rest : ∀ ph ∈ c.rest, ∀ t ∈ ph, Prog.Avoids N t
  stuck : (∃ t ∈ c.cur, t.Stuck N M) ∨ ∃ ph ∈ c.rest, ∃ t ∈ ph, Prog.Stuck N M t

theorem Prog.Stuck.ne_ret {N M : Set Loc} {t : Task C} (s : t.Stuck N M) : t ≠ .ret () := by
  rintro rfl; cases s

theorem Config.Stuck.step {N M : Set Loc} {c d : Config C} (hs : c.Stuck N M) (s : CStep c d) : d.Stuck N M := by
  cases s with
  | @task ts rest h p p' h' i hi st =>
    obtain ⟨hl, hip⟩ := List.getElem?_eq_some_iff.1 hi
    have hm : p ∈ ts := List.mem_iff_getElem?.2 ⟨i, hi⟩
    have ha : p'.Avoids N := by
      have := hs.cur p hm
      cases st with
      | load _ => cases this with | load k => exact k _
      | store _ => cases this with | store _ k => exact k
    have hst : p.Stuck N M → p'.Stuck N M := by
      intro sp
      cases st with
      | load hv =>
        cases sp with
        | read hn => exact absurd hv (hs.noVal _ hn _)
        | load k => exact k _
      | store hv =>
        cases sp with
        | write hn => exact absurd (hs.dead _ hn) hv
        | store k => exact k
    refine ⟨?_, ?_, ?_, hs.rest, ?_⟩
    · intro l hN v
      cases st with
      | load _ => exact hs.noVal l hN v
      | store _ =>
        have hav := hs.cur _ hm
        cases hav with
        | store hnl _ =>
          show Heap.set h _ _ l ≠ _
          rw [Heap.set_ne _ _ (by rintro rfl; exact hnl hN)]
          exact hs.noVal l hN v
    · intro l hM
      cases st with
      | load _ => exact hs.dead l hM
      | store hv =>
        show Heap.set h _ _ l = _
        rw [Heap.set_ne _ _ (by rintro rfl; exact hv (hs.dead _ hM))]
        exact hs.dead l hM
    · intro t ht
      rcases List.mem_or_eq_of_mem_set ht with h1 | rfl
      · exact hs.cur t h1
      · exact ha
    · rcases hs.stuck with ⟨t, ht, dt⟩ | hd
      · left
        obtain ⟨j, hj⟩ := List.mem_iff_getElem?.1 ht
        by_cases hij : i = j
        · subst hij
          rw [hi] at hj
          cases hj
          exact ⟨p', List.mem_iff_getElem?.2 ⟨i, by simp [hl]⟩, hst dt⟩
        · exact ⟨t, List.mem_iff_getElem?.2 ⟨j, by rw [List.getElem?_set_ne hij]; exact hj⟩, dt⟩
      · exact Or.inr hd
  | @barrier ts ph rest h hb =>
    refine ⟨hs.noVal, hs.dead, fun t ht => hs.rest ph (by simp) t ht,
      fun q hq => hs.rest q (List.mem_cons_of_mem _ hq), ?_⟩
    rcases hs.stuck with ⟨t, ht, dt⟩ | ⟨q, hq, t, ht, dt⟩
    · exact absurd (hb t ht) dt.ne_ret
    · rcases List.mem_cons.1 hq with rfl | hq
      · exact Or.inl ⟨t, ht, dt⟩
      · exact Or.inr ⟨q, hq, t, ht, dt⟩

theorem Config.Stuck.alwaysUB {N M : Set Loc} {c : Config C} (hs : c.Stuck N M) : AlwaysUB c := by
  obtain ⟨ts, rest, h⟩ := c
  have := CStep.acc rest ts h
  generalize (⟨ts, rest, h⟩ : Config C) = c at this hs
  induction this with
  | intro c _ ih =>
    rcases c.progress with hf | hu | hp
    · exfalso
      rcases hs.stuck with ⟨t, ht, dt⟩ | ⟨q, hq, _⟩
      · exact dt.ne_ret (hf.1 t ht)
      · rw [hf.2] at hq; simp at hq
    · exact .now hu
    · exact .later hp fun d s => ih d s (hs.step s)

/-- a loop with a lost iteration -/
theorem loop_stuck {N M : Set Loc} {h : Heap C} {n i : Nat} {task : Nat → Task C} (par : Bool)
    (hN : ∀ l ∈ N, ∀ v, h l ≠ some (some v)) (hM : ∀ l ∈ M, h l = none)
    (ha : ∀ j < n, (task j).Avoids N) (hi : i < n) (hs : (task i).Stuck N M) :
    AlwaysUB ((Code.loop par (tasks1 n task)).start h) := by
  have mem : ∀ t, t ∈ tasks1 n task ↔ ∃ j < n, task j = t := by
    intro t; simp [tasks1]
  have hmi : task i ∈ tasks1 n task := (mem _).2 ⟨i, hi, rfl⟩
  have hav : ∀ t ∈ tasks1 n task, t.Avoids N := by
    intro t ht
    obtain ⟨j, hj, rfl⟩ := (mem t).1 ht
    exact ha j hj
  refine Config.Stuck.alwaysUB (N := N) (M := M) ⟨hN, hM, fun t ht => absurd ht List.not_mem_nil, ?_, Or.inr ?_⟩
  · show ∀ ph ∈ Code.loop par _, _
    intro ph hph t ht
    unfold Code.loop at hph
    split at hph
    · rw [List.mem_singleton] at hph
      subst hph; exact hav t ht
    · obtain ⟨s, hs', rfl⟩ := List.mem_map.1 hph
      rw [List.mem_singleton] at ht
      subst ht; exact hav _ hs'
  · show ∃ ph ∈ Code.loop par _, _
    unfold Code.loop
    split
    · exact ⟨_, List.mem_singleton_self _, _, hmi, hs⟩
    · exact ⟨_, List.mem_map.2 ⟨_, hmi, rfl⟩, _, List.mem_singleton_self _, hs⟩

end OTFFT
