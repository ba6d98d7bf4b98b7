/-
C53: the container `simd_array`.
-/
import Verif.Spec.SimdArray
import Verif.Proof.Session
import Verif.Proof.Lengths
import Verif.Proof.Overflow

namespace OTFFT.Props

variable {C : Type}

/-- what the proof knows about the variables of a running block -/
structure Vars (w0 w : World C) (k : ℕ) (v : ℕ → SArr) (s : ℕ → Option ℕ) : Prop where
  wf : w.WF
  live : ∀ b, b ∈ w.live ↔ b ∈ w0.live ∨ ∃ i < k, v i = some b
  out : ∀ i < k, ∀ b, v i = some b → b ∉ w0.live
  inj : ∀ i < k, ∀ j < k, ∀ b, v i = some b → v j = some b → i = j
  size : ∀ i < k, ∀ n, s i = some n → ∃ b, v i = some b ∧ ∀ j < n, w.heap (b, j) ≠ none
  heap : ∀ l : Loc, l.1 ∈ w0.live → w.heap l = w0.heap l

theorem World.WF.free {w : World C} (h : w.WF) (b : ℕ) : (w.free b).WF :=
  ⟨fun h0 => h.null h0.1, fun l hl => by
    show (if l.1 = b then none else w.heap l) = none
    by_cases e : l.1 = b
    · exact if_pos e
    · rw [if_neg e]; exact h.dead l fun h' => hl ⟨h', e⟩⟩

theorem World.WF.alloc {w : World C} (h : w.WF) {b : ℕ} (hb : b ≠ 0) (n : ℕ) : (w.alloc b n).WF :=
  ⟨fun h0 => by rcases h0 with h0 | h0; exacts [hb h0.symm, h.null h0], fun l hl => by
    show (if l.1 = b then _ else w.heap l) = none
    rw [if_neg fun e => hl (.inl e)]
    exact h.dead l fun h' => hl (.inr h')⟩

theorem setVar_same (v : ℕ → SArr) (i : ℕ) (p : SArr) : setVar v i p i = p := if_pos rfl
theorem setVar_ne (v : ℕ → SArr) {i j : ℕ} (p : SArr) (h : j ≠ i) : setVar v i p j = v j := if_neg h

/-- emptying a variable -/
theorem Vars.release {w0 w : World C} {k : ℕ} {v : ℕ → SArr} {s : ℕ → Option ℕ} (V : Vars w0 w k v s) {i : ℕ} (hi : i < k) :
    (SArr.release C (v i)).wp (fun _ w' => Vars w0 w' k (setVar v i none) fun j => if j = i then none else s j) w := by
  have key : ∀ w' : World C, w'.WF → (∀ b, b ∈ w'.live ↔ b ∈ w.live ∧ v i ≠ some b) →
      (∀ l : Loc, v i ≠ some l.1 → w'.heap l = w.heap l) → Vars w0 w' k (setVar v i none) fun j => if j = i then none else s j := by
    intro w' wf hl hh
    refine ⟨wf, fun b => ?_, fun j hj b e => ?_, fun j hj j' hj' b e e' => ?_, fun j hj n e => ?_, fun l hl' => ?_⟩
    · rw [hl, V.live]
      constructor
      · rintro ⟨h | ⟨j, hj, e⟩, hne⟩
        · exact .inl h
        · refine .inr ⟨j, hj, ?_⟩
          rw [setVar_ne _ _ (by rintro rfl; exact hne e)]; exact e
      · rintro (h | ⟨j, hj, e⟩)
        · exact ⟨.inl h, fun e => V.out i hi b e h⟩
        · have hji : j ≠ i := by rintro rfl; rw [setVar_same] at e; cases e
          rw [setVar_ne _ _ hji] at e
          exact ⟨.inr ⟨j, hj, e⟩, fun e' => hji (V.inj j hj i hi b e e')⟩
    · have hji : j ≠ i := by rintro rfl; rw [setVar_same] at e; cases e
      rw [setVar_ne _ _ hji] at e
      exact V.out j hj b e
    · have hji : j ≠ i := by rintro rfl; rw [setVar_same] at e; cases e
      have hji' : j' ≠ i := by rintro rfl; rw [setVar_same] at e'; cases e'
      rw [setVar_ne _ _ hji] at e
      rw [setVar_ne _ _ hji'] at e'
      exact V.inj j hj j' hj' b e e'
    · have hji : j ≠ i := by rintro rfl; rw [if_pos rfl] at e; cases e
      rw [if_neg hji] at e
      obtain ⟨b, hb, hc⟩ := V.size j hj n e
      refine ⟨b, by rw [setVar_ne _ _ hji]; exact hb, fun t ht => ?_⟩
      rw [hh _ fun e' => hji (V.inj j hj i hi b hb e')]
      exact hc t ht
    · rw [hh l fun e => V.out i hi _ e hl']; exact V.heap l hl'
  cases e : v i with
  | none =>
    refine key w V.wf (fun b => ?_) (fun _ _ => rfl)
    simp [e]
  | some b =>
    refine ⟨(V.live b).2 (.inr ⟨i, hi, e⟩), key _ (World.WF.free V.wf b) (fun b' => ?_) fun l hl => ?_⟩
    · show b' ∈ w.live \ {b} ↔ _
      rw [e]
      simp only [Set.mem_sdiff, Set.mem_singleton_iff, ne_eq, Option.some.injEq]
      exact and_congr_right fun _ => not_congr eq_comm
    · show (if l.1 = b then none else w.heap l) = _
      rw [if_neg fun h => hl (by rw [e, h])]

/-- giving a new block to a variable that is empty -/
theorem Vars.give {w0 w : World C} {k k' : ℕ} {v : ℕ → SArr} {s : ℕ → Option ℕ} (V : Vars w0 w k v s) {i : ℕ}
    (hk : k ≤ k') (hk' : ∀ j < k', j < k ∨ j = i) (hi : i < k') (hv : i < k → v i = none) {b n : ℕ} (hb : b ≠ 0) (hl : b ∉ w.live) :
    Vars w0 (w.alloc b n) k' (setVar v i (some b)) fun j => if j = i then some n else s j := by
  have hne : ∀ j < k, v j ≠ some b := fun j hj e => hl ((V.live b).2 (.inr ⟨j, hj, e⟩))
  refine ⟨World.WF.alloc V.wf hb n, fun b' => ?_, fun j hj b' e => ?_, fun j hj j' hj' b' e e' => ?_, fun j hj m e => ?_, fun l hl' => ?_⟩
  · show b' ∈ insert b w.live ↔ _
    rw [Set.mem_insert_iff, V.live]
    constructor
    · rintro (rfl | h | ⟨j, hj, e⟩)
      · exact .inr ⟨i, hi, setVar_same _ _ _⟩
      · exact .inl h
      · refine .inr ⟨j, by omega, ?_⟩
        rw [setVar_ne _ _ (by rintro rfl; rw [hv hj] at e; cases e)]; exact e
    · rintro (h | ⟨j, hj, e⟩)
      · exact .inr (.inl h)
      · by_cases hji : j = i
        · subst hji; rw [setVar_same] at e; left; exact (Option.some.inj e).symm
        · rw [setVar_ne _ _ hji] at e
          exact .inr (.inr ⟨j, (hk' j hj).resolve_right hji, e⟩)
  · by_cases hji : j = i
    · subst hji; rw [setVar_same] at e; cases e
      exact fun h => hl ((V.live b).2 (.inl h))
    · rw [setVar_ne _ _ hji] at e
      exact V.out j ((hk' j hj).resolve_right hji) b' e
  · by_cases hji : j = i
    · by_cases hji' : j' = i
      · rw [hji, hji']
      · subst hji
        rw [setVar_same] at e; cases e
        rw [setVar_ne _ _ hji'] at e'
        exact absurd e' (hne j' ((hk' j' hj').resolve_right hji'))
    · by_cases hji' : j' = i
      · subst hji'
        rw [setVar_same] at e'; cases e'
        rw [setVar_ne _ _ hji] at e
        exact absurd e (hne j ((hk' j hj).resolve_right hji))
      · rw [setVar_ne _ _ hji] at e
        rw [setVar_ne _ _ hji'] at e'
        exact V.inj j ((hk' j hj).resolve_right hji) j' ((hk' j' hj').resolve_right hji') b' e e'
  · by_cases hji : j = i
    · subst hji
      rw [if_pos rfl] at e; cases e
      refine ⟨b, setVar_same _ _ _, fun t ht => ?_⟩
      show (if (b, t).1 = b then (if (b, t).2 < n then some none else none) else w.heap (b, t)) ≠ none
      rw [if_pos rfl, if_pos ht]; simp
    · rw [if_neg hji] at e
      obtain ⟨b', hb', hc⟩ := V.size j ((hk' j hj).resolve_right hji) m e
      refine ⟨b', by rw [setVar_ne _ _ hji]; exact hb', fun t ht => ?_⟩
      show (if (b', t).1 = b then _ else w.heap (b', t)) ≠ none
      rw [if_neg]
      · exact hc t ht
      · rintro (rfl : b' = b)
        exact hne j ((hk' j hj).resolve_right hji) hb'
  · show (if l.1 = b then _ else w.heap l) = _
    rw [if_neg, V.heap l hl']
    rintro rfl
    exact hl ((V.live _).2 (.inl hl'))

/-- an empty variable may be added -/
theorem Vars.empty {w0 w : World C} {k : ℕ} {v : ℕ → SArr} {s : ℕ → Option ℕ} (V : Vars w0 w k v s) :
    Vars w0 w (k + 1) (setVar v k none) fun j => if j = k then none else s j := by
  have hlt : ∀ j < k + 1, ∀ b, setVar v k none j = some b → j < k ∧ v j = some b := fun j hj b e => by
    have : j ≠ k := by rintro rfl; rw [setVar_same] at e; cases e
    rw [setVar_ne _ _ this] at e
    exact ⟨by omega, e⟩
  refine ⟨V.wf, fun b => ?_, fun j hj b e => ?_, fun j hj j' hj' b e e' => ?_, fun j hj n e => ?_, V.heap⟩
  · rw [V.live]
    refine or_congr_right ⟨fun ⟨j, hj, e⟩ => ⟨j, by omega, ?_⟩, fun ⟨j, hj, e⟩ => ⟨j, hlt j hj b e⟩⟩
    rw [setVar_ne _ _ (by omega)]; exact e
  · exact V.out j (hlt j hj b e).1 b (hlt j hj b e).2
  · exact V.inj j (hlt j hj b e).1 j' (hlt j' hj' b e').1 b (hlt j hj b e).2 (hlt j' hj' b e').2
  · have : j ≠ k := by rintro rfl; rw [if_pos rfl] at e; cases e
    rw [if_neg this] at e
    obtain ⟨b, hb, hc⟩ := V.size j (by omega) n e
    exact ⟨b, by rw [setVar_ne _ _ this]; exact hb, hc⟩

/-- what is left of the world at the end -/
def Restored (w0 w : World C) : Prop := w.WF ∧ w.live = w0.live ∧ ∀ l : Loc, l.1 ∈ w0.live → w.heap l = w0.heap l

theorem Vars.dropAll {w0 : World C} {v : ℕ → SArr} : ∀ (k : ℕ) {w : World C} {s : ℕ → Option ℕ}, Vars w0 w k v s →
    (OTFFT.dropAll C v k).wp (fun _ w' => Restored w0 w') w
  | 0, w, s, V => ⟨V.wf, Set.ext fun b => by rw [V.live]; simp, V.heap⟩
  | k + 1, w, s, V => by
    refine Act.wp_seq (V.release (i := k) (by omega)) fun _ w' V' => Vars.dropAll k (s := s) ?_
    have e : ∀ i < k, setVar v k none i = v i := fun i hi => setVar_ne _ _ (by omega)
    have es : ∀ i < k, (if i = k then none else s i) = s i := fun i hi => if_neg (by omega)
    refine ⟨V'.wf, fun b => ?_, fun i hi b h => ?_, fun i hi j hj b h h' => ?_, fun i hi n h => ?_, V'.heap⟩
    · rw [V'.live]
      refine or_congr_right ⟨fun ⟨i, hi, h⟩ => ⟨i, ?_, ?_⟩, fun ⟨i, hi, h⟩ => ⟨i, by omega, by rw [e i hi]; exact h⟩⟩
      · rcases Nat.lt_succ_iff_lt_or_eq.1 hi with h' | rfl
        · exact h'
        · rw [setVar_same] at h; cases h
      · rcases Nat.lt_succ_iff_lt_or_eq.1 hi with h' | rfl
        · rw [← e i h']; exact h
        · rw [setVar_same] at h; cases h
    · exact V'.out i (by omega) b (by rw [e i hi]; exact h)
    · exact V'.inj i (by omega) j (by omega) b (by rw [e i hi]; exact h) (by rw [e j hj]; exact h')
    · have := V'.size i (by omega) n (by show (if i = k then none else s i) = _; rw [es i hi]; exact h)
      rwa [e i hi] at this

theorem Vars.run {w0 : World C} (p : ArrProg C) : ∀ {k : ℕ} {v : ℕ → SArr} {s : ℕ → Option ℕ} {w : World C}, Vars w0 w k v s →
    p.Legal k s → (p.run k v).wp (fun _ w' => Restored w0 w') w := by
  have hset : ∀ {k : ℕ} {v : ℕ → SArr} {s : ℕ → Option ℕ} {w : World C} {i : ℕ} {n : Int}, i < k → Vars w0 w k v s →
      (SArr.setup C (v i) n).wp (fun p w' => (p = none ∧ Vars w0 w' k (setVar v i none) fun j => if j = i then none else s j) ∨
        ∃ b, p = some b ∧ Vars w0 w' k (setVar v i (some b)) fun j => if j = i then some n.toNat else s j) w := by
    intro k v s w i n hi V
    refine Act.wp_seq (V.release hi) fun _ w' V' => ?_
    split_ifs with hn
    · exact .inl ⟨rfl, V'⟩
    · refine ⟨.inl ⟨rfl, V'⟩, fun b hb hl => .inr ⟨b, rfl, ?_⟩⟩
      have := V'.give (i := i) (k' := k) (n := n.toNat) le_rfl (fun j hj => .inl hj) hi (fun _ => setVar_same _ _ _) hb hl
      have e1 : setVar (setVar v i none) i (some b) = setVar v i (some b) := by
        funext j; unfold setVar; split_ifs <;> rfl
      have e2 : (fun j => if j = i then some n.toNat else if j = i then none else s j) = fun j => if j = i then some n.toNat else s j := by
        funext j; split_ifs <;> rfl
      rw [e1, e2] at this
      exact this
  induction p with
  | done => exact fun V _ => V.dropAll
  | empty next ih => exact fun V h => ih V.empty h
  | make n next threw ih ih' =>
    intro k v s w V h
    refine Act.wp_seq (P := fun p w' => (p = none ∧ Vars w0 w' k v s) ∨ ∃ b, p = some b ∧
      Vars w0 w' (k + 1) (setVar v k (some b)) fun j => if j = k then some n.toNat else s j) ?_ ?_
    · show (if n < 0 then Act.ret none else Act.malloc n.toNat Act.ret : Act C SArr).wp _ w
      split_ifs with hn
      · exact .inl ⟨rfl, V⟩
      · exact ⟨.inl ⟨rfl, V⟩, fun b hb hl => .inr ⟨b, rfl,
          V.give (k' := k + 1) (by omega) (fun j hj => by omega) (by omega) (fun h => absurd h (by omega)) hb hl⟩⟩
    · rintro p w' (⟨rfl, V'⟩ | ⟨b, rfl, V'⟩)
      · exact ih' V' h.2
      · exact ih V' h.1
  | setup i n next threw ih ih' =>
    intro k v s w V h
    refine Act.wp_seq (hset h.1 V) ?_
    rintro p w' (⟨rfl, V'⟩ | ⟨b, rfl, V'⟩)
    · exact ih' V' h.2.2
    · exact ih V' h.2.1
  | destroy i next ih =>
    intro k v s w V h
    exact Act.wp_seq (V.release h.1) fun _ w' V' => ih V' h.2
  | store i j x next ih =>
    intro k v s w V h
    obtain ⟨hi, ⟨n, hs, hj⟩, hn⟩ := h
    obtain ⟨b, hb, hc⟩ := V.size i hi n hs
    have hp : ((v i).ptr + j).loc = (b, j) := by rw [hb]; simp [SArr.ptr, Ptr.base, Ptr.loc_add]
    have ha := hc j hj
    have hset : ∀ l : Loc, l ≠ (b, j) → (w.heap.set (b, j) x) l = w.heap l := fun l h => Heap.set_ne _ _ h
    have hnone : ∀ l : Loc, (w.heap.set (b, j) x) l = none ↔ w.heap l = none := by
      intro l
      by_cases e : l = (b, j)
      · subst e; simp [ha]
      · rw [hset l e]
    have g : Good Set.univ {(b, j)} [[.store (b, j) x (.ret ())]] w.heap (w.heap.set (b, j) x) :=
      Good.single (.store rfl ha .ret)
    show (Act.exec [[.store ((v i).ptr + j).loc x (.ret ())]] >>= fun _ => next.run k v).wp _ w
    rw [hp]
    refine Act.wp_seq (Act.wp_exec (Q := fun _ w' => w' = ⟨w.heap.set (b, j) x, w.live⟩) g rfl) ?_
    rintro _ w' rfl
    refine ih ⟨⟨V.wf.null, fun l hl => (hnone l).2 (V.wf.dead l hl)⟩, V.live, V.out, V.inj, fun i' hi' n' e => ?_, fun l hl => ?_⟩ hn
    · obtain ⟨b', hb', hc'⟩ := V.size i' hi' n' e
      exact ⟨b', hb', fun t ht h => hc' t ht ((hnone _).1 h)⟩
    · rw [← V.heap l hl]
      refine hset l ?_
      rintro rfl
      exact V.out i hi b hb hl
  | copy i next ih => exact fun _ h => absurd h id
  | assign i j next ih => exact fun _ h => absurd h id

/-- C53: a block that uses arrays without copying them, and writes within their lengths, has no undefined behaviour
whatever `malloc` returns; at its end all its memory has been given back and no other memory has changed. -/
theorem C53_clean (p : ArrProg C) {w : World C} (hw : w.WF) (h : p.Legal 0 fun _ => none) :
    ¬ p.block.MayUB w ∧ ∀ w', p.block.Runs w () w' → w'.live = w.live ∧ ∀ l : Loc, w'.heap l = w.heap l := by
  have := Vars.run p (w0 := w) (k := 0) (v := fun _ => none) (s := fun _ => none)
    ⟨hw, fun b => by simp, fun i hi => absurd hi (by omega), fun i hi => absurd hi (by omega), fun i hi => absurd hi (by omega),
      fun _ _ => rfl⟩ h
  refine ⟨Act.wp_noUB this, fun w' hr => ?_⟩
  obtain ⟨h1, h2, h3⟩ := Act.wp_runs this hr
  refine ⟨h2, fun l => ?_⟩
  by_cases hl : l.1 ∈ w.live
  · exact h3 l hl
  · rw [hw.dead l hl, h1.dead l (by rw [h2]; exact hl)]

/-! ### Copies -/

/-- two variables hold the same block, or one holds a block that is not allocated -/
def Doomed (live : Set ℕ) (k : ℕ) (v : ℕ → SArr) : Prop :=
  (∃ i < k, ∃ j < k, ∃ b, i ≠ j ∧ v i = some b ∧ v j = some b) ∨ ∃ i < k, ∃ b, v i = some b ∧ b ∉ live

theorem runs_bind {α β : Type} {m : Act C α} {f : α → Act C β} {w w' : World C} {r : β} (h : (m >>= f).Runs w r w') :
    ∃ a w1, m.Runs w a w1 ∧ (f a).Runs w1 r w' := by
  change (m.bind f).Runs w r w' at h
  induction m generalizing w with
  | ret a => exact ⟨a, w, .ret, h⟩
  | run c m ih =>
    cases h with
    | run hr hf hk => obtain ⟨a, w1, h1, h2⟩ := ih hk; exact ⟨a, w1, .run hr hf h1, h2⟩
  | malloc n m ih =>
    cases h with
    | mallocFail hk => obtain ⟨a, w1, h1, h2⟩ := ih _ hk; exact ⟨a, w1, .mallocFail h1, h2⟩
    | mallocOk b hb hl hk => obtain ⟨a, w1, h1, h2⟩ := ih _ hk; exact ⟨a, w1, .mallocOk b hb hl h1, h2⟩
  | free b m ih =>
    cases h with
    | free hl hk => obtain ⟨a, w1, h1, h2⟩ := ih hk; exact ⟨a, w1, .free hl h1, h2⟩

theorem runs_release {a : SArr} {w w' : World C} (h : (SArr.release C a).Runs w () w') :
    (∀ b, a = some b → b ∈ w.live) ∧ w'.live = w.live \ {b | a = some b} := by
  cases a with
  | none => cases h with | ret => exact ⟨by simp, by simp⟩
  | some b =>
    cases h with
    | free hl hk =>
      cases hk
      refine ⟨fun b' e => by cases e; exact hl, ?_⟩
      show w.live \ {b} = _
      congr 1; ext b'; simp [eq_comm]

theorem Doomed.release {w w' : World C} {k : ℕ} {v : ℕ → SArr} (D : Doomed w.live k v) {i : ℕ}
    (h : (SArr.release C (v i)).Runs w () w') : Doomed w'.live k (setVar v i none) := by
  obtain ⟨hl, e⟩ := runs_release h
  rcases D with ⟨p, hp, q, hq, b, hpq, e1, e2⟩ | ⟨p, hp, b, e1, hb⟩
  · have side : ∀ p < k, ∀ q < k, p ≠ q → v p = some b → v q = some b → q ≠ i → Doomed w'.live k (setVar v i none) := by
      intro p hp q hq hpq e1 e2 hqi
      by_cases hpi : p = i
      · refine .inr ⟨q, hq, b, by rw [setVar_ne _ _ hqi]; exact e2, ?_⟩
        rw [e]; subst hpi; exact fun h => h.2 e1
      · exact .inl ⟨p, hp, q, hq, b, hpq, by rw [setVar_ne _ _ hpi]; exact e1, by rw [setVar_ne _ _ hqi]; exact e2⟩
    by_cases hqi : q = i
    · exact side q hq p hp hpq.symm e2 e1 (by rintro rfl; exact hpq hqi.symm)
    · exact side p hp q hq hpq e1 e2 hqi
  · have hpi : p ≠ i := by rintro rfl; exact hb (hl b e1)
    exact .inr ⟨p, hp, b, by rw [setVar_ne _ _ hpi]; exact e1, by rw [e]; exact fun h => hb h.1⟩

/-- a new block for a variable that is empty or new -/
theorem Doomed.give {live : Set ℕ} {k k' : ℕ} {v : ℕ → SArr} (D : Doomed live k v) {i b : ℕ} (hk : k ≤ k') (hi : i < k')
    (hv : i < k → v i = none) : Doomed (insert b live) k' (setVar v i (some b)) := by
  have ne : ∀ p < k, ∀ c, v p = some c → p ≠ i := by
    rintro p hp c e rfl; rw [hv hp] at e; cases e
  rcases D with ⟨p, hp, q, hq, c, hpq, e1, e2⟩ | ⟨p, hp, c, e1, hc⟩
  · exact .inl ⟨p, by omega, q, by omega, c, hpq, by rw [setVar_ne _ _ (ne p hp c e1)]; exact e1, by rw [setVar_ne _ _ (ne q hq c e2)]; exact e2⟩
  · by_cases hcb : c = b
    · subst hcb
      exact .inl ⟨p, by omega, i, hi, c, ne p hp c e1, by rw [setVar_ne _ _ (ne p hp c e1)]; exact e1, setVar_same _ _ _⟩
    · exact .inr ⟨p, by omega, c, by rw [setVar_ne _ _ (ne p hp c e1)]; exact e1, by rintro (h | h); exacts [hcb h, hc h]⟩

theorem Doomed.dropAll {v : ℕ → SArr} : ∀ {k : ℕ} {w w' : World C}, Doomed w.live k v → ¬ (OTFFT.dropAll C v k).Runs w () w'
  | 0, w, w', D => by rcases D with ⟨p, hp, _⟩ | ⟨p, hp, _⟩ <;> omega
  | k + 1, w, w', D => by
    intro h
    obtain ⟨_, w1, h1, h2⟩ := runs_bind h
    have D1 := D.release h1
    refine Doomed.dropAll (k := k) ?_ h2
    have lt : ∀ p < k + 1, ∀ b, setVar v k none p = some b → p < k ∧ v p = some b := fun p hp b e => by
      have : p ≠ k := by rintro rfl; rw [setVar_same] at e; cases e
      rw [setVar_ne _ _ this] at e
      exact ⟨by omega, e⟩
    rcases D1 with ⟨p, hp, q, hq, c, hpq, e1, e2⟩ | ⟨p, hp, c, e1, hc⟩
    · exact .inl ⟨p, (lt p hp c e1).1, q, (lt q hq c e2).1, c, hpq, (lt p hp c e1).2, (lt q hq c e2).2⟩
    · exact .inr ⟨p, (lt p hp c e1).1, c, (lt p hp c e1).2, hc⟩

theorem runs_setup {a : SArr} {n : Int} {w w' : World C} {r : SArr} (h : (SArr.setup C a n).Runs w r w') :
    ∃ w1, (SArr.release C a).Runs w () w1 ∧ ((r = none ∧ w' = w1) ∨ ∃ b, r = some b ∧ b ∉ w1.live ∧ w'.live = insert b w1.live) := by
  obtain ⟨_, w1, h1, h2⟩ := runs_bind h
  refine ⟨w1, h1, ?_⟩
  split_ifs at h2 with hn
  · cases h2; exact .inl ⟨rfl, rfl⟩
  · cases h2 with
    | mallocFail hk => cases hk; exact .inl ⟨rfl, rfl⟩
    | mallocOk b hb hl hk => cases hk; exact .inr ⟨b, rfl, hl, rfl⟩

theorem Doomed.run (p : ArrProg C) : ∀ {k : ℕ} {v : ℕ → SArr} {w w' : World C}, Doomed w.live k v → p.NoAssign → p.Scoped k →
    ¬ (p.run k v).Runs w () w' := by
  induction p with
  | done => exact fun D _ _ => D.dropAll
  | empty next ih =>
    intro k v w w' D na sc
    refine ih ?_ na sc
    rcases D with ⟨p, hp, q, hq, c, hpq, e1, e2⟩ | ⟨p, hp, c, e1, hc⟩
    · exact .inl ⟨p, by omega, q, by omega, c, hpq, by rw [setVar_ne _ _ (by omega)]; exact e1, by rw [setVar_ne _ _ (by omega)]; exact e2⟩
    · exact .inr ⟨p, by omega, c, by rw [setVar_ne _ _ (by omega)]; exact e1, hc⟩
  | make n next threw ih ih' =>
    intro k v w w' D na sc h
    obtain ⟨r, w1, h1, h2⟩ := runs_bind h
    obtain ⟨w2, h3, h4⟩ := runs_setup h1
    obtain ⟨-, e⟩ := runs_release h3
    have e : w2.live = w.live := by rw [e]; simp
    rcases h4 with ⟨rfl, rfl⟩ | ⟨b, rfl, hb, el⟩
    · exact ih' (by rw [e]; exact D) na.2 sc.2 h2
    · refine ih ?_ na.1 sc.1 h2
      rw [el, e]
      exact D.give (by omega) (by omega) fun h => absurd h (by omega)
  | setup i n next threw ih ih' =>
    intro k v w w' D na sc h
    obtain ⟨r, w1, h1, h2⟩ := runs_bind h
    obtain ⟨w2, h3, h4⟩ := runs_setup h1
    have D1 := D.release h3
    rcases h4 with ⟨rfl, rfl⟩ | ⟨b, rfl, hb, el⟩
    · exact ih' D1 na.2 sc.2.2 h2
    · refine ih (v := setVar v i (some b)) ?_ na.1 sc.2.1 h2
      have := D1.give (k' := k) (i := i) (b := b) le_rfl sc.1 fun _ => setVar_same _ _ _
      have e1 : setVar (setVar v i none) i (some b) = setVar v i (some b) := by
        funext j; unfold setVar; split_ifs <;> rfl
      rw [e1] at this
      rw [el]; exact this
  | destroy i next ih =>
    intro k v w w' D na sc h
    obtain ⟨_, w1, h1, h2⟩ := runs_bind h
    exact ih (D.release h1) na sc.2 h2
  | store i j x next ih =>
    intro k v w w' D na sc h
    obtain ⟨_, w1, h1, h2⟩ := runs_bind h
    cases h1 with
    | run hr hf hk => cases hk; exact ih (w := ⟨Config.heap _, w.live⟩) D na sc.2 h2
  | copy i next ih =>
    intro k v w w' D na sc
    refine ih ?_ na sc.2
    rcases D with ⟨p, hp, q, hq, c, hpq, e1, e2⟩ | ⟨p, hp, c, e1, hc⟩
    · exact .inl ⟨p, by omega, q, by omega, c, hpq, by rw [setVar_ne _ _ (by omega)]; exact e1, by rw [setVar_ne _ _ (by omega)]; exact e2⟩
    · exact .inr ⟨p, by omega, c, by rw [setVar_ne _ _ (by omega)]; exact e1, hc⟩
  | assign i j next ih => exact fun _ na => absurd na id

/-! every program comes to its end or runs into undefined behaviour -/

theorem release_ends (a : SArr) (w : World C) (fin : w.live.Finite) :
    (SArr.release C a).MayUB w ∨ ∃ w', (SArr.release C a).Runs w () w' ∧ w'.live.Finite := by
  cases a with
  | none => exact .inr ⟨w, .ret, fin⟩
  | some b =>
    by_cases hb : b ∈ w.live
    · exact .inr ⟨_, .free hb .ret, fin.subset Set.sdiff_subset⟩
    · exact .inl (.badFree hb)

theorem runs_seq {α β : Type} {m : Act C α} {f : α → Act C β} {w w' w'' : World C} {a : α} {r : β}
    (h : m.Runs w a w') (h' : (f a).Runs w' r w'') : (m >>= f).Runs w r w'' := by
  show (m.bind f).Runs w r w''
  induction h with
  | ret => exact h'
  | run hr hf _ ih => exact .run hr hf (ih h')
  | mallocFail _ ih => exact .mallocFail (ih h')
  | mallocOk b hb hl _ ih => exact .mallocOk b hb hl (ih h')
  | free hl _ ih => exact .free hl (ih h')

theorem seq_ends {α β : Type} {m : Act C α} {f : α → Act C β} {w : World C} (h : m.MayUB w ∨ ∃ a w', m.Runs w a w' ∧ w'.live.Finite)
    (hf : ∀ a (w' : World C), m.Runs w a w' → w'.live.Finite → (f a).MayUB w' ∨ ∃ b w'', (f a).Runs w' b w'' ∧ w''.live.Finite) :
    (m >>= f).MayUB w ∨ ∃ b w'', (m >>= f).Runs w b w'' ∧ w''.live.Finite := by
  rcases h with h | ⟨a, w', h, fin⟩
  · exact .inl (Act.mayUB_left h)
  · rcases hf a w' h fin with h' | ⟨b, w'', h', fin'⟩
    · exact .inl (Act.mayUB_seq h h')
    · exact .inr ⟨b, w'', runs_seq h h', fin'⟩

theorem dropAll_ends (v : ℕ → SArr) : ∀ (k : ℕ) (w : World C), w.live.Finite →
    (OTFFT.dropAll C v k).MayUB w ∨ ∃ (a : Unit) (w' : World C), (OTFFT.dropAll C v k).Runs w a w' ∧ w'.live.Finite
  | 0, w, fin => .inr ⟨(), w, .ret, fin⟩
  | k + 1, w, fin => seq_ends ((release_ends (v k) w fin).imp_right fun ⟨w', h⟩ => ⟨(), w', h⟩) fun _ w' _ fin' => dropAll_ends v k w' fin'

theorem setup_ends (a : SArr) (n : Int) (w : World C) (fin : w.live.Finite) :
    (SArr.setup C a n).MayUB w ∨ ∃ r w', (SArr.setup C a n).Runs w r w' ∧ w'.live.Finite := by
  refine seq_ends ((release_ends a w fin).imp_right fun ⟨w', h⟩ => ⟨(), w', h⟩) fun _ w' _ fin' => .inr ?_
  split_ifs
  · exact ⟨_, _, .ret, fin'⟩
  · exact ⟨_, _, .mallocFail .ret, fin'⟩

theorem run_ends (p : ArrProg C) : ∀ (k : ℕ) (v : ℕ → SArr) (w : World C), w.live.Finite →
    (p.run k v).MayUB w ∨ ∃ (a : Unit) (w' : World C), (p.run k v).Runs w a w' ∧ w'.live.Finite := by
  induction p with
  | done => exact fun k v w fin => dropAll_ends v k w fin
  | empty next ih => exact fun k v w fin => ih _ _ w fin
  | make n next threw ih ih' =>
    intro k v w fin
    refine seq_ends (setup_ends none n w fin) fun r w' _ fin' => ?_
    cases r with
    | none => exact ih' _ _ w' fin'
    | some b => exact ih _ _ w' fin'
  | setup i n next threw ih ih' =>
    intro k v w fin
    refine seq_ends (setup_ends (v i) n w fin) fun r w' _ fin' => ?_
    cases r with
    | none => exact ih' _ _ w' fin'
    | some b => exact ih _ _ w' fin'
  | destroy i next ih =>
    intro k v w fin
    exact seq_ends ((release_ends (v i) w fin).imp_right fun ⟨w', h⟩ => ⟨(), w', h⟩) fun _ w' _ fin' => ih _ _ w' fin'
  | store i j x next ih =>
    intro k v w fin
    refine seq_ends ?_ fun _ w' _ fin' => ih _ _ w' fin'
    by_cases h : w.heap ((v i).ptr + j).loc = none
    · refine .inl (.code ⟨⟨[.store ((v i).ptr + j).loc x (.ret ())], [], w.heap⟩, .step (.barrier (by simp)) (.refl _), .inl ⟨_, List.mem_cons_self, .store h⟩⟩)
    · have g : Good Set.univ {((v i).ptr + j).loc} [[.store ((v i).ptr + j).loc x (.ret ())]] w.heap (w.heap.set ((v i).ptr + j).loc x) :=
        Good.single (.store rfl h .ret)
      have := Act.wp_exec (w := w) (Q := fun _ w' => w'.live = w.live) g rfl
      obtain ⟨a, w', hr⟩ := Act.wp_exists this fin
      exact .inr ⟨a, w', hr, by rw [Act.wp_runs this hr]; exact fin⟩
  | copy i next ih => exact fun k v w fin => ih _ _ w fin
  | assign i j next ih => exact fun k v w fin => ih _ _ w fin

/-- C53: once an array that holds memory has been copied (the class has no copy constructor of its own, so the copy shares
the memory), no continuation that does not assign arrays comes to its end: every execution of it, whatever `malloc`
returns, runs into undefined behaviour. -/
theorem C53_copy (p : ArrProg C) (na : p.NoAssign) {k : ℕ} (sc : p.Scoped (k + 1)) (v : ℕ → SArr) {i b : ℕ} (hi : i < k)
    (hb : v i = some b) (w : World C) (fin : w.live.Finite) :
    ((ArrProg.copy i p).run k v).MayUB w ∧ ∀ w', ¬ ((ArrProg.copy i p).run k v).Runs w () w' := by
  have key : ∀ w', ¬ ((ArrProg.copy i p).run k v).Runs w () w' := fun w' => ?_
  · refine ⟨(run_ends _ k v w fin).resolve_right fun ⟨_, w', h, _⟩ => key w' h, key⟩
  refine Doomed.run p (.inl ⟨i, by omega, k, by omega, b, by omega, ?_, ?_⟩) na sc
  · rw [setVar_ne _ _ (by omega)]; exact hb
  · rw [setVar_same]; exact hb

/-- C53: the same after an assignment of a (different) array that holds memory -/
theorem C53_assign (p : ArrProg C) (na : p.NoAssign) {k : ℕ} (sc : p.Scoped k) (v : ℕ → SArr) {i j b : ℕ} (hi : i < k) (hj : j < k)
    (hij : i ≠ j) (hb : v j = some b) (w : World C) (fin : w.live.Finite) :
    ((ArrProg.assign i j p).run k v).MayUB w ∧ ∀ w', ¬ ((ArrProg.assign i j p).run k v).Runs w () w' := by
  have key : ∀ w', ¬ ((ArrProg.assign i j p).run k v).Runs w () w' := fun w' => ?_
  · refine ⟨(run_ends _ k v w fin).resolve_right fun ⟨_, w', h, _⟩ => key w' h, key⟩
  refine Doomed.run p (.inl ⟨i, hi, j, hj, b, hij, ?_, ?_⟩) na sc
  · rw [setVar_same]; exact hb
  · rw [setVar_ne _ _ (by omega)]; exact hb

/-! ### Examples -/

/-- `simd_array<T> a(10), b; a[9] = x; b.setup(5); a.setup(20); b.destroy();` with exceptions that leave the block -/
example (x : C) {w : World C} (hw : w.WF) :
    let p : ArrProg C := .make 10 (.empty (.store 0 9 x (.setup 1 5 (.setup 0 20 (.destroy 1 .done) .done) .done))) .done
    ¬ p.block.MayUB w ∧ ∀ w', p.block.Runs w () w' → w'.live = w.live ∧ ∀ l : Loc, w'.heap l = w.heap l :=
  C53_clean _ hw (by simp [ArrProg.Legal])

/-- `simd_array<T> a(10), b(a);`: whenever the allocation succeeds, the end of the block is undefined behaviour -/
example {w : World C} (fin : w.live.Finite) {b : ℕ} (h0 : b ≠ 0) (hb : b ∉ w.live) :
    ((ArrProg.make 10 (.copy 0 .done) .done : ArrProg C).block).MayUB w :=
  .mallocOk b h0 hb (C53_copy .done trivial trivial (setVar (fun _ => none) 0 (some b)) (i := 0) (b := b) (k := 1) (by omega)
    (setVar_same _ _ _) (w.alloc b 10) (fin.insert b)).1

end OTFFT.Props
