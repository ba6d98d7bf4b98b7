/-
Work of tasks, loops and programs: an additive upper bound on the number of accesses.
-/
import Verif.Spec.Work
import Verif.Model.Bluestein
import Mathlib.Tactic.Ring
import Mathlib.Tactic.Linarith

namespace OTFFT

variable {C : Type}

/-! ### Reachability with and without counting -/

theorem ReachIn.reach {a d : Config C} {k : ℕ} (h : ReachIn a k d) : Reach a d := by
  induction h with
  | refl => exact .refl _
  | task i hi hs _ ih => exact .step (.task i hi hs) ih
  | barrier hb _ ih => exact .step (.barrier hb) ih

theorem Reach.counted {a d : Config C} (h : Reach a d) : ∃ k, ReachIn a k d := by
  induction h with
  | refl => exact ⟨0, .refl _⟩
  | step hs _ ih =>
    obtain ⟨k, hk⟩ := ih
    cases hs with
    | task i hi ht => exact ⟨k + 1, .task i hi ht hk⟩
    | barrier hb => exact ⟨k, .barrier hb hk⟩

theorem Act.RunsIn.runs {α : Type} {m : Act C α} {w w' : World C} {k s : ℕ} {a : α} (h : m.RunsIn w k s a w') :
    m.Runs w a w' := by
  induction h with
  | ret => exact .ret
  | run hr hf _ ih => exact .run hr.reach hf ih
  | mallocFail _ ih => exact .mallocFail ih
  | mallocOk b h0 hl _ ih => exact .mallocOk b h0 hl ih
  | free hb _ ih => exact .free hb ih

theorem Act.Runs.counted {α : Type} {m : Act C α} {w w' : World C} {a : α} (h : m.Runs w a w') :
    ∃ k s, m.RunsIn w k s a w' := by
  induction h with
  | ret => exact ⟨0, 0, .ret⟩
  | run hr hf _ ih =>
    obtain ⟨k, s, ih⟩ := ih
    obtain ⟨i, hi⟩ := hr.counted
    exact ⟨_, _, .run hi hf ih⟩
  | mallocFail _ ih => obtain ⟨k, s, ih⟩ := ih; exact ⟨_, _, .mallocFail ih⟩
  | mallocOk b h0 hl _ ih => obtain ⟨k, s, ih⟩ := ih; exact ⟨_, _, .mallocOk b h0 hl ih⟩
  | free hb _ ih => obtain ⟨k, s, ih⟩ := ih; exact ⟨_, _, .free hb ih⟩

/-! ### Tasks -/

/-- the task makes at most `n` accesses -/
inductive Prog.AM {α : Type} : Prog C α → ℕ → Prop where
  | ret {a n} : Prog.AM (.ret a) n
  | ub {n} : Prog.AM .ub n
  | load {l k n} : (∀ v, Prog.AM (k v) n) → Prog.AM (.load l k) (n + 1)
  | store {l v k n} : Prog.AM k n → Prog.AM (.store l v k) (n + 1)

theorem Prog.AM.mono {α : Type} {p : Prog C α} {n m : ℕ} (h : p.AM n) (hm : n ≤ m) : p.AM m := by
  induction h generalizing m with
  | ret => exact .ret
  | ub => exact .ub
  | load _ ih =>
    obtain ⟨m, rfl⟩ : ∃ j, m = j + 1 := ⟨m - 1, by omega⟩
    exact .load fun v => ih v (by omega)
  | store _ ih =>
    obtain ⟨m, rfl⟩ : ∃ j, m = j + 1 := ⟨m - 1, by omega⟩
    exact .store (ih (by omega))

theorem Prog.AM.bind {α β : Type} {p : Prog C α} {f : α → Prog C β} {n m : ℕ} (h : p.AM n) (hf : ∀ a, (f a).AM m) :
    (p.bind f).AM (n + m) := by
  induction h with
  | ret => exact (hf _).mono (by omega)
  | ub => exact .ub
  | load _ ih => rw [show ∀ n, n + 1 + m = n + m + 1 by intros; omega]; exact .load ih
  | store _ ih => rw [show ∀ n, n + 1 + m = n + m + 1 by intros; omega]; exact .store ih

/-- all tasks of the list together make at most `n` accesses -/
inductive TasksAM : List (Task C) → ℕ → Prop where
  | nil {n} : TasksAM [] n
  | cons {t ts a b n} : Prog.AM t a → TasksAM ts b → a + b ≤ n → TasksAM (t :: ts) n

theorem TasksAM.mono {ts : List (Task C)} {n m : ℕ} (h : TasksAM ts n) (hm : n ≤ m) : TasksAM ts m := by
  cases h with
  | nil => exact .nil
  | cons ha hb hn => exact .cons ha hb (by omega)

theorem TasksAM.append {s t : List (Task C)} {n m : ℕ} (h : TasksAM s n) (h' : TasksAM t m) :
    TasksAM (s ++ t) (n + m) := by
  induction h with
  | nil => exact h'.mono (by omega)
  | cons ha _ hn ih => exact .cons ha ih (by omega)

theorem TasksAM.all {ts : List (Task C)} {a : ℕ} (h : ∀ t ∈ ts, Prog.AM t a) : TasksAM ts (ts.length * a) := by
  induction ts with
  | nil => exact .nil
  | cons t ts ih =>
    refine .cons (h t (by simp)) (ih fun t ht => h t (by simp [ht])) ?_
    rw [List.length_cons, Nat.add_mul, Nat.one_mul, Nat.add_comm]

theorem TasksAM.tasks1 {n a : ℕ} {f : ℕ → Task C} (h : ∀ i, i < n → (f i).AM a) : TasksAM (tasks1 n f) (n * a) := by
  have := TasksAM.all (ts := OTFFT.tasks1 n f) (a := a) ?_
  · simpa [OTFFT.tasks1] using this
  · intro t ht
    simp only [OTFFT.tasks1, List.mem_map, List.mem_range] at ht
    obtain ⟨i, hi, rfl⟩ := ht
    exact h i hi

theorem TasksAM.flatMap {α : Type} {l : List α} {f : α → List (Task C)} {a : ℕ} (h : ∀ i ∈ l, TasksAM (f i) a) :
    TasksAM (l.flatMap f) (l.length * a) := by
  induction l with
  | nil => exact .nil
  | cons i l ih =>
    rw [List.flatMap_cons, List.length_cons, Nat.add_mul, Nat.one_mul, Nat.add_comm]
    exact (h i (by simp)).append (ih fun j hj => h j (by simp [hj]))

theorem TasksAM.tasks2 {m k a : ℕ} {f : ℕ → ℕ → Task C} (h : ∀ p i, p < m → i < k → (f p i).AM a) :
    TasksAM (tasks2 m k f) (m * k * a) := by
  have := TasksAM.flatMap (l := List.range m) (f := fun p => (List.range k).map fun i => f p i) (a := k * a) ?_
  · rw [List.length_range] at this
    rw [Nat.mul_assoc]; exact this
  · intro p hp
    exact TasksAM.tasks1 fun i hi => h p i (List.mem_range.1 hp) hi

/-! ### Code -/

theorem loop_flatten (par : Bool) (ts : List (Task C)) : (Code.loop par ts).flatten = ts := by
  unfold Code.loop
  cases par
  · simp only [Bool.false_eq_true, if_false]
    induction ts with
    | nil => rfl
    | cons t ts ih => simp [ih]
  · simp

theorem items_loop (kind : LoopKind) (ts : List (Task C)) : (Items.loop kind ts).flatMap Prod.fst = ts := by
  cases kind
  · simp only [Items.loop]
    induction ts with
    | nil => rfl
    | cons t ts ih => simp [ih]
  · simp [Items.loop]
  · simp [Items.loop]

theorem region_flatten (I : Items C) : (Items.region I).flatten = I.flatMap Prod.fst := by
  induction I with
  | nil => rfl
  | cons p I ih =>
    obtain ⟨ts, b⟩ := p
    cases b
    · rw [Items.region, List.flatMap_cons, ← ih]
      cases Items.region I with
      | nil => simp
      | cons ph c => simp
    · simp [Items.region, ih]

theorem toProg_am {c : Code C} {n : ℕ} (h : TasksAM c.flatten n) : (Code.toProg c).AM n := by
  induction c generalizing n with
  | nil => exact .ret
  | cons ts c ih =>
    simp only [Code.toProg]
    rw [List.flatten_cons] at h
    induction ts generalizing n with
    | nil => exact ih h
    | cons t ts iht =>
      rw [List.cons_append] at h
      cases h with
      | cons ha hb hn => exact (ha.bind fun _ => iht hb).mono hn

/-! ### Soundness -/

theorem TasksAM.split {s t : List (Task C)} {m : ℕ} (h : TasksAM (s ++ t) m) : ∃ p q, TasksAM s p ∧ TasksAM t q ∧ p + q ≤ m := by
  induction s generalizing m with
  | nil => exact ⟨0, m, .nil, h, by omega⟩
  | cons u s ih =>
    rw [List.cons_append] at h
    cases h with
    | cons ha hb hn =>
      obtain ⟨p, q, hp, hq, hpq⟩ := ih hb
      exact ⟨_, q, .cons ha hp le_rfl, hq, by omega⟩

theorem TasksAM.step {ts : List (Task C)} {i n : ℕ} {p p' : Task C} {h h' : Heap C} (ht : TasksAM ts n) (hi : ts[i]? = some p)
    (hs : TStep p h p' h') : ∃ m, n = m + 1 ∧ TasksAM (ts.set i p') m := by
  induction ht generalizing i with
  | nil => simp at hi
  | @cons t ts a b n ha hb hn ih =>
    cases i with
    | zero =>
      simp only [List.getElem?_cons_zero, Option.some.injEq] at hi
      subst hi
      refine ⟨n - 1, ?_, ?_⟩
      · cases hs <;> cases ha <;> omega
      · rw [List.set_cons_zero]
        cases hs with
        | load hl => cases ha with | load hk => exact .cons (hk _) hb (by omega)
        | store hl => cases ha with | store hk => exact .cons hk hb (by omega)
    | succ i =>
      rw [List.getElem?_cons_succ] at hi
      obtain ⟨m, hm, hts⟩ := ih hi
      exact ⟨n - 1, by omega, by rw [List.set_cons_succ]; exact .cons ha hts (by omega)⟩

theorem TasksAM.sound {a d : Config C} {k : ℕ} (hr : ReachIn a k d) :
    ∀ n m, TasksAM a.cur n → TasksAM a.rest.flatten m → k ≤ n + m := by
  induction hr with
  | refl => intros; omega
  | task i hi hs _ ih =>
    intro n m hn hm
    obtain ⟨n', rfl, hn'⟩ := hn.step hi hs
    have := ih n' m hn' hm
    omega
  | @barrier ts ph rest h k d hb _ ih =>
    intro n m hn hm
    simp only [List.flatten_cons] at hm
    have : k ≤ m := by
      have := hm.split
      obtain ⟨p, q, hp, hq, hpq⟩ := this
      have := ih p q hp hq
      omega
    omega

theorem TasksAM.code {c : Code C} {n : ℕ} (h : TasksAM c.flatten n) : c.WorkAtMost n := fun _ _ _ hr => by
  have := TasksAM.sound hr 0 n .nil h
  omega

/-! ### Kernel bodies -/

theorem loadN_am {α : Type} {m : ℕ} : (L : ℕ) → (p : Fin L → Ptr) → (k : (Fin L → C) → Prog C α) → (∀ v, (k v).AM m) →
    (loadN L p k).AM (L + m)
  | 0, _, k, hk => by rw [Nat.zero_add]; exact hk _
  | L + 1, p, k, hk => by
    rw [show L + 1 + m = L + m + 1 by omega]
    exact .load fun v => loadN_am L _ _ fun vs => hk _

theorem storeN_am {α : Type} {m : ℕ} : (L : ℕ) → (p : Fin L → Ptr) → (v : Fin L → C) → (k : Prog C α) → k.AM m →
    (storeN L p v k).AM (L + m)
  | 0, _, _, k, hk => by rw [Nat.zero_add]; exact hk
  | L + 1, p, v, k, hk => by
    rw [show L + 1 + m = L + m + 1 by omega]
    exact .store (storeN_am L _ _ _ hk)

theorem loadM_am {α : Type} {L m : ℕ} : (a : ℕ) → (p : Fin a → Fin L → Ptr) → (k : (Fin a → Fin L → C) → Prog C α) →
    (∀ v, (k v).AM m) → (loadM L a p k).AM (a * L + m)
  | 0, _, k, hk => by rw [Nat.zero_mul, Nat.zero_add]; exact hk _
  | a + 1, p, k, hk => by
    rw [show (a + 1) * L + m = L + (a * L + m) by ring]
    exact loadN_am L _ _ fun v => loadM_am a _ _ fun vs => hk _

theorem storeM_am {α : Type} {L m : ℕ} : (b : ℕ) → (p : Fin b → Fin L → Ptr) → (v : Fin b → Fin L → C) → (k : Prog C α) →
    k.AM m → (storeM L b p v k).AM (b * L + m)
  | 0, _, _, k, hk => by rw [Nat.zero_mul, Nat.zero_add]; exact hk
  | b + 1, p, v, k, hk => by
    rw [show (b + 1) * L + m = L + (b * L + m) by ring]
    exact storeN_am L _ _ _ (storeM_am b _ _ _ hk)

theorem bfly_am {L a b c : ℕ} (rd : Fin a → Fin L → Ptr) (tw : Fin b → Fin L → Ptr) (wr : Fin c → Fin L → Ptr)
    (f : (Fin a → Fin L → C) → (Fin b → Fin L → C) → (Fin c → Fin L → C)) : (bfly rd tw wr f).AM ((a + b + c) * L) := by
  rw [show (a + b + c) * L = a * L + (b * L + (c * L + 0)) by ring]
  exact loadM_am _ _ _ fun x => loadM_am _ _ _ fun w => storeM_am _ _ _ _ .ret

theorem storeList_am : (ws : List (Ptr × C)) → (storeList ws).AM ws.length
  | [] => .ret
  | _ :: ws => .store (storeList_am ws)

/-! ### Programs -/

theorem Act.WorkAtMost.mono {α : Type} {m : Act C α} {A A' S S' : ℕ} (h : m.WorkAtMost A S) (hA : A ≤ A') (hS : S ≤ S') :
    m.WorkAtMost A' S' := fun w k s a w' hr => by
  have := h w k s a w' hr
  omega

theorem Act.WorkAtMost.ret {α : Type} {a : α} {A S : ℕ} : (Act.ret a : Act C α).WorkAtMost A S := by
  intro w k s a w' hr
  cases hr
  omega

theorem Act.RunsIn.bind {α β : Type} {m : Act C α} {f : α → Act C β} {w w' : World C} {k s : ℕ} {b : β}
    (h : (m.bind f).RunsIn w k s b w') :
    ∃ a w1 k1 k2 s1 s2, m.RunsIn w k1 s1 a w1 ∧ (f a).RunsIn w1 k2 s2 b w' ∧ k = k1 + k2 ∧ s = s1 + s2 := by
  induction m generalizing w k s with
  | ret a => exact ⟨a, w, 0, k, 0, s, .ret, h, by omega, by omega⟩
  | run c m ih =>
    cases h with
    | run hr hf hk =>
      obtain ⟨a, w1, k1, k2, s1, s2, h1, h2, rfl, rfl⟩ := ih hk
      exact ⟨a, w1, _, k2, s1, s2, .run hr hf h1, h2, by omega, rfl⟩
  | malloc n m ih =>
    cases h with
    | mallocFail hk =>
      obtain ⟨a, w1, k1, k2, s1, s2, h1, h2, rfl, rfl⟩ := ih _ hk
      exact ⟨a, w1, k1, k2, _, s2, .mallocFail h1, h2, rfl, by omega⟩
    | mallocOk b h0 hl hk =>
      obtain ⟨a, w1, k1, k2, s1, s2, h1, h2, rfl, rfl⟩ := ih _ hk
      exact ⟨a, w1, k1, k2, _, s2, .mallocOk b h0 hl h1, h2, rfl, by omega⟩
  | free b m ih =>
    cases h with
    | free hb hk =>
      obtain ⟨a, w1, k1, k2, s1, s2, h1, h2, rfl, rfl⟩ := ih hk
      exact ⟨a, w1, k1, k2, s1, s2, .free hb h1, h2, rfl, rfl⟩

theorem Act.WorkAtMost.bind {α β : Type} {m : Act C α} {f : α → Act C β} {A A' S S' : ℕ} (h : m.WorkAtMost A S)
    (hf : ∀ a, (f a).WorkAtMost A' S') : (m.bind f).WorkAtMost (A + A') (S + S') := by
  intro w k s b w' hr
  obtain ⟨a, w1, k1, k2, s1, s2, h1, h2, rfl, rfl⟩ := hr.bind
  have := h _ _ _ _ _ h1
  have := hf a _ _ _ _ _ h2
  omega

theorem Act.WorkAtMost.run {α : Type} {c : Code C} {m : Act C α} {A A' S : ℕ} (h : c.WorkAtMost A) (hm : m.WorkAtMost A' S) :
    (Act.run c m).WorkAtMost (A + A') S := by
  intro w k s b w' hr
  cases hr with
  | run hr hf hk =>
    have := h _ _ _ hr
    have := hm _ _ _ _ _ hk
    omega

theorem Act.WorkAtMost.exec {c : Code C} {A : ℕ} (h : c.WorkAtMost A) : (Act.exec c).WorkAtMost A 0 :=
  (Act.WorkAtMost.run h (Act.WorkAtMost.ret (A := 0))).mono (by omega) le_rfl

theorem Act.WorkAtMost.malloc {α : Type} {n : ℕ} {k : Option ℕ → Act C α} {A S : ℕ} (h : ∀ r, (k r).WorkAtMost A S) :
    (Act.malloc n k).WorkAtMost A (n + S) := by
  intro w i s b w' hr
  cases hr with
  | mallocFail hk => have := h _ _ _ _ _ _ hk; omega
  | mallocOk _ _ _ hk => have := h _ _ _ _ _ _ hk; omega

theorem Act.WorkAtMost.free {α : Type} {b : ℕ} {m : Act C α} {A S : ℕ} (h : m.WorkAtMost A S) :
    (Act.free b m).WorkAtMost A S := by
  intro w i s a w' hr
  cases hr with
  | free _ hk => exact h _ _ _ _ _ hk

theorem release_work (a : SArr) : (SArr.release C a).WorkAtMost 0 0 := by
  cases a with
  | none => exact .ret
  | some b => exact .free .ret

theorem sarr_work (a : SArr) (n : ℤ) : (SArr.setup C a n).WorkAtMost 0 n.toNat := by
  refine ((release_work a).bind (A' := 0) (S' := n.toNat) fun _ => ?_).mono (by omega) (by omega)
  split
  · exact .ret
  · exact (Act.WorkAtMost.malloc (S := 0) fun _ => .ret).mono le_rfl (by omega)

theorem ub_work : Code.WorkAtMost ([[.ub]] : Code C) 0 :=
  TasksAM.code (TasksAM.cons (a := 0) (b := 0) .ub .nil le_rfl)

theorem int_work (n : ℤ) : (Act.int n : Act C Unit).WorkAtMost 0 0 := by
  unfold Act.int
  split
  · exact .ret
  · exact (Act.WorkAtMost.run ub_work (Act.WorkAtMost.ret (A := 0))).mono le_rfl le_rfl

end OTFFT
