/-
Two threads that use the work area of the same object.
-/
import Verif.Proof.Fork
import Verif.Proof.Overflow

namespace OTFFT

variable {C α β : Type}

/-- On every path the program comes to a store to `l` (or to undefined behaviour). -/
inductive Prog.Hits (l : Loc) : Prog C α → Prop where
  | here {v k} : Prog.Hits l (.store l v k)
  | store {l' v k} : Prog.Hits l k → Prog.Hits l (.store l' v k)
  | load {l' k} : (∀ v, Prog.Hits l (k v)) → Prog.Hits l (.load l' k)
  | ub : Prog.Hits l .ub

/-- some task comes to a store to `l` -/
def Code.Hits (l : Loc) (c : Code C) : Prop := ∃ ts ∈ c, ∃ p ∈ ts, Prog.Hits l p

def Items.Hits (l : Loc) (c : Items C) : Prop := ∃ ts ∈ c, ∃ p ∈ ts.1, Prog.Hits l p

theorem Prog.Hits.bindLeft {l : Loc} {p : Prog C α} (h : p.Hits l) (f : α → Prog C β) : (p.bind f).Hits l := by
  induction h with
  | here => exact .here
  | store _ ih => exact .store ih
  | load _ ih => exact .load ih
  | ub => exact .ub

theorem Prog.Hits.bindRight {l : Loc} (p : Prog C α) {f : α → Prog C β} (h : ∀ a, (f a).Hits l) : (p.bind f).Hits l := by
  induction p with
  | ret a => exact h a
  | load l' k ih => exact .load ih
  | store l' v k ih => exact .store ih
  | ub => exact .ub

theorem Code.Hits.left {l : Loc} {c : Code C} (h : c.Hits l) (d : Code C) : Code.Hits l (c ++ d) := by
  obtain ⟨ts, h1, h2⟩ := h; exact ⟨ts, List.mem_append_left _ h1, h2⟩
theorem Code.Hits.right {l : Loc} {d : Code C} (c : Code C) (h : d.Hits l) : Code.Hits l (c ++ d) := by
  obtain ⟨ts, h1, h2⟩ := h; exact ⟨ts, List.mem_append_right _ h1, h2⟩
theorem Items.Hits.left {l : Loc} {c : Items C} (h : c.Hits l) (d : Items C) : Items.Hits l (c ++ d) := by
  obtain ⟨ts, h1, h2⟩ := h; exact ⟨ts, List.mem_append_left _ h1, h2⟩
theorem Items.Hits.right {l : Loc} {d : Items C} (c : Items C) (h : d.Hits l) : Items.Hits l (c ++ d) := by
  obtain ⟨ts, h1, h2⟩ := h; exact ⟨ts, List.mem_append_right _ h1, h2⟩

theorem Code.Hits.loop {l : Loc} {ts : List (Task C)} {t : Task C} (ht : t ∈ ts) (h : t.Hits l) (par : Bool) :
    (Code.loop par ts).Hits l := by
  cases par with
  | true => exact ⟨ts, by simp [Code.loop], t, ht, h⟩
  | false => exact ⟨[t], by simp [Code.loop, ht], t, by simp, h⟩

theorem Items.Hits.loop {l : Loc} {ts : List (Task C)} {t : Task C} (ht : t ∈ ts) (h : t.Hits l) (kind : LoopKind) :
    (Items.loop kind ts).Hits l := by
  cases kind with
  | serial => exact ⟨([t], true), by simp [Items.loop, ht], t, by simp, h⟩
  | omp => exact ⟨(ts, true), by simp [Items.loop], t, ht, h⟩
  | ompNowait => exact ⟨(ts, false), by simp [Items.loop], t, ht, h⟩

theorem Items.Hits.region {l : Loc} {c : Items C} (h : c.Hits l) : c.region.Hits l := by
  induction c with
  | nil => obtain ⟨_, h, _⟩ := h; cases h
  | cons it c ih =>
    obtain ⟨ts, bar⟩ := it
    obtain ⟨it', h1, p, h2, h3⟩ := h
    cases bar with
    | true =>
      show Code.Hits l (ts :: Items.region c)
      rcases List.mem_cons.1 h1 with rfl | h1
      · exact ⟨ts, by simp, p, h2, h3⟩
      · obtain ⟨ts', h4, h5⟩ := ih ⟨it', h1, p, h2, h3⟩
        exact ⟨ts', by simp [h4], h5⟩
    | false =>
      have e : Items.region ((ts, false) :: c) = match Items.region c with | [] => [ts] | ph :: c => (ts ++ ph) :: c := rfl
      rw [e]
      rcases List.mem_cons.1 h1 with rfl | h1
      · split
        · exact ⟨ts, by simp, p, h2, h3⟩
        · exact ⟨_, List.mem_cons_self, p, List.mem_append_left _ h2, h3⟩
      · obtain ⟨ts', h4, q, h5, h6⟩ := ih ⟨it', h1, p, h2, h3⟩
        split
        · rename_i hr; rw [hr] at h4; cases h4
        · rename_i ph r hr
          rw [hr] at h4
          rcases List.mem_cons.1 h4 with rfl | h4
          · exact ⟨_, List.mem_cons_self, q, List.mem_append_right _ h5, h6⟩
          · exact ⟨ts', by simp [h4], q, h5, h6⟩

theorem Code.Hits.toProg {l : Loc} {c : Code C} (h : c.Hits l) : c.toProg.Hits l := by
  induction c with
  | nil => obtain ⟨_, h, _⟩ := h; cases h
  | cons ts c ih =>
    obtain ⟨ts', h1, p, h2, h3⟩ := h
    show Prog.Hits l (ts.foldr (fun t k => t.bind fun _ => k) (Code.toProg c))
    have key : ∀ (ts : List (Task C)) (k : Task C), (p ∈ ts ∨ k.Hits l) → Prog.Hits l (ts.foldr (fun t k => t.bind fun _ => k) k) := by
      intro ts
      induction ts with
      | nil =>
        rintro k (h | h)
        · cases h
        · exact h
      | cons t ts ih =>
        intro k h
        rw [List.foldr_cons]
        by_cases e : p = t
        · rw [← e]; exact h3.bindLeft _
        · refine Prog.Hits.bindRight _ fun _ => ih k ?_
          rcases h with h | h
          · exact Or.inl ((List.mem_cons.1 h).resolve_left e)
          · exact Or.inr h
    rcases List.mem_cons.1 h1 with rfl | h1
    · exact key _ _ (Or.inl h2)
    · exact key _ _ (Or.inr (ih ⟨ts', h1, p, h2, h3⟩))

/-! ### kernel bodies -/

theorem loadN_hits {l : Loc} (n : Nat) (p : Fin n → Ptr) (k : (Fin n → C) → Prog C α) (h : ∀ v, (k v).Hits l) :
    (loadN n p k).Hits l := by
  induction n with
  | zero => exact h _
  | succ n ih => exact .load fun v => ih _ _ fun vs => h _

theorem loadM_hits {l : Loc} (L n : Nat) (p : Fin n → Fin L → Ptr) (k : (Fin n → Fin L → C) → Prog C α) (h : ∀ v, (k v).Hits l) :
    (loadM L n p k).Hits l := by
  induction n with
  | zero => exact h _
  | succ n ih => exact loadN_hits _ _ _ fun v => ih _ _ fun vs => h _

theorem bfly_hits {L a b c : Nat} {rd : Fin a → Fin L → Ptr} {tw : Fin b → Fin L → Ptr} {wr : Fin c → Fin L → Ptr}
    {f : (Fin a → Fin L → C) → (Fin b → Fin L → C) → (Fin c → Fin L → C)} (hL : 0 < L) (hc : 0 < c) :
    (bfly rd tw wr f).Hits (wr ⟨0, hc⟩ ⟨0, hL⟩).loc := by
  refine loadM_hits _ _ _ _ fun x => loadM_hits _ _ _ _ fun t => ?_
  cases c with
  | zero => omega
  | succ c =>
    cases L with
    | zero => omega
    | succ L => exact .here

theorem bfly_hits' {l : Loc} {L a b c : Nat} {rd : Fin a → Fin L → Ptr} {tw : Fin b → Fin L → Ptr} {wr : Fin c → Fin L → Ptr}
    {f : (Fin a → Fin L → C) → (Fin b → Fin L → C) → (Fin c → Fin L → C)} (hL : 0 < L) (hc : 0 < c)
    (e : (wr ⟨0, hc⟩ ⟨0, hL⟩).loc = l) : (bfly rd tw wr f).Hits l := by
  subst e; exact bfly_hits hL hc

/-! ### Running up to the store -/

theorem AllSchedF.hits {R D : Set Loc} {Q : Heap C → Prop} {l : Loc} {c : Config C} (a : AllSchedF R D Q c)
    (h : (∃ p ∈ c.cur, Prog.Hits l p) ∨ c.rest.Hits l) :
    ∃ d, Reach c d ∧ (∃ p ∈ d.cur, Prog.access p = some (l, true)) ∧ (∀ l', l' ∉ D → d.heap l' = c.heap l') ∧
      ∀ l', d.heap l' = none ↔ c.heap l' = none := by
  induction a with
  | @intro c nu ft post _ ih =>
    -- one step
    have go : ∀ d, CStep c d → ((∃ p ∈ d.cur, Prog.Hits l p) ∨ d.rest.Hits l) →
        ∃ d, Reach c d ∧ (∃ p ∈ d.cur, Prog.access p = some (l, true)) ∧ (∀ l', l' ∉ D → d.heap l' = c.heap l') ∧
          ∀ l', d.heap l' = none ↔ c.heap l' = none := by
      intro d s hd
      obtain ⟨e, r, p, f, g⟩ := ih d s hd
      have hs : ∀ l', l' ∉ D → d.heap l' = c.heap l' := by
        intro l' hl'
        obtain ⟨ts, rest, h0⟩ := c
        cases s with
        | barrier _ => rfl
        | task i hi st =>
          cases st with
          | load _ => rfl
          | store hv =>
            refine Heap.set_ne _ _ ?_
            rintro rfl
            exact hl' (ft _ (List.mem_of_getElem? hi) _ true rfl)
      exact ⟨e, .step s r, p, fun l' hl' => (f l' hl').trans (hs l' hl'), fun l' => (g l').trans (s.heap_none l')⟩
    rcases h with ⟨p, hp, hh⟩ | hr
    · obtain ⟨i, hi, rfl⟩ := List.getElem_of_mem hp
      have hi' : c.cur[i]? = some c.cur[i] := by simp [hi]
      have hnb : ¬ (c.cur[i]).Bad c.heap := fun hb => nu (Or.inl ⟨_, hp, hb⟩)
      obtain ⟨ts, rest, h0⟩ := c
      have mem : ∀ q : Task C, q ∈ ts.set i q := fun q => by
        have : i < (ts.set i q).length := by simpa using hi
        exact List.mem_iff_getElem.2 ⟨i, this, by simp⟩
      revert hi' hnb hh hp
      show ts[i] ∈ ts → Prog.Hits l ts[i] → ts[i]? = some ts[i] → ¬ (ts[i]).Bad h0 → _
      generalize ts[i] = t
      intro hp hh hi' hnb
      cases hh with
      | here => exact ⟨_, .refl _, ⟨_, hp, rfl⟩, fun _ _ => rfl, fun _ => Iff.rfl⟩
      | @store l' v k hk =>
        refine go _ (.task i hi' (.store fun hv => hnb (.store hv))) (Or.inl ⟨k, mem k, hk⟩)
      | @load l' k hk =>
        by_cases hv : ∃ v, h0 l' = some (some v)
        · obtain ⟨v, hv⟩ := hv
          exact go _ (.task i hi' (.load hv)) (Or.inl ⟨k v, mem _, hk v⟩)
        · push Not at hv; exact absurd (.load hv) hnb
      | ub => exact absurd .ub hnb
    · have hf : ¬ c.Final := by
        rintro ⟨_, h2⟩
        rw [h2] at hr
        obtain ⟨_, h, _⟩ := hr; cases h
      obtain ⟨d, s⟩ := Config.exists_step nu hf
      refine go d s ?_
      obtain ⟨ts, rest, h0⟩ := c
      cases s with
      | task i hi st => exact Or.inr hr
      | barrier _ =>
        obtain ⟨ts', h1, p, h2, h3⟩ := hr
        rcases List.mem_cons.1 h1 with rfl | h1
        · exact Or.inl ⟨p, h2, h3⟩
        · exact Or.inr ⟨ts', h1, p, h2, h3⟩

/-! ### The transforms write their work area -/

theorem mem_tasks1 {n : Nat} (f : Nat → Task C) {i : Nat} (hi : i < n) : f i ∈ tasks1 n f :=
  List.mem_map.2 ⟨i, List.mem_range.2 hi, rfl⟩

theorem mem_tasks2 {m n : Nat} (f : Nat → Nat → Task C) {p i : Nat} (hp : p < m) (hi : i < n) : f p i ∈ tasks2 m n f :=
  List.mem_flatMap.2 ⟨p, List.mem_range.2 hp, List.mem_map.2 ⟨i, List.mem_range.2 hi, rfl⟩⟩

theorem cnt_pos {s L : Nat} (hs : 0 < s) (hL : 0 < L) : 0 < cnt s L := Nat.div_pos (by omega) hL

variable {F : Type} [DArith F] [CArith F C]

theorem difFFT_hits {r : Nat} [NeZero r] (B : BF r) (L : Nat) (inv : Bool) (path : Path) (mode : ScaleMode) {n : Nat}
    (eo : Bool) (x y W : Ptr) (hr : 2 ≤ r) (hn : r < n) : (difFFT C r B L inv path mode n 1 eo x y W).Hits y.loc := by
  rw [difFFT, dif_neg (by omega), if_pos rfl]
  refine Items.Hits.left ?_ _
  have h1 : 0 < cnt (n / r) 2 := cnt_pos (Nat.div_pos (by omega) (by omega)) (by omega)
  unfold difCore1
  cases path with
  | serial => exact Items.Hits.loop (mem_tasks1 _ h1) (bfly_hits' (by omega) (by omega) (by simp [vec, Ptr.add_zero])) _
  | omp => exact Items.Hits.loop (mem_tasks1 _ h1) (bfly_hits' (by omega) (by omega) (by simp [vec, Ptr.add_zero])) _

theorem endAny_hits (inv : Bool) (kind : LoopKind) (mode : ScaleMode) (n : Nat) {s : Nat} (hs : 1 < s) (src dst : Ptr) :
    (endAny C inv kind mode n s src dst).Hits dst.loc := by
  have key : ∀ (r : Nat) [NeZero r] (B : BF r), 0 < r → (endKern r B C kind mode s src dst).Hits dst.loc := by
    intro r _ B hr
    unfold endKern
    rw [if_neg (by omega : ¬ s = 1)]
    exact Items.Hits.loop (mem_tasks1 _ (cnt_pos (by omega) (by omega))) (bfly_hits' (by omega) hr (by simp [vec, Ptr.add_zero])) _
  unfold endAny
  split
  · exact key 16 _ (by omega)
  split
  · exact key 8 _ (by omega)
  split
  · exact key 4 _ (by omega)
  split
  · exact key 2 _ (by omega)
  · exact ⟨_, List.mem_cons_self, _, List.mem_cons_self, .ub⟩

theorem ditFFT_hits {r : Nat} [NeZero r] (B : BF r) {L : Nat} (inv : Bool) (path : Path) (mode : ScaleMode) {n : Nat}
    (eo : Bool) (x y W : Ptr) (hr4 : 4 ≤ r) (hL : 0 < L) (hn : r < n) : (ditFFT C r B L inv path mode n 1 eo x y W).Hits y.loc := by
  rw [ditFFT, dif_neg (by omega)]
  refine Items.Hits.left ?_ _
  rw [ditFFT]
  split
  · exact endAny_hits _ _ _ _ (by omega) _ _
  · rename_i h2
    rw [if_neg (by omega : ¬ r * 1 = 1)]
    refine Items.Hits.right _ ?_
    unfold ditCoreS
    have h3 : 0 < n / r / r := Nat.div_pos (by omega) (by omega)
    have e1 : y + (L * 0 + r * 1 * 0 + n / r * (r * 1) / r * 0) = y := Ptr.add_zero _
    have e2 : y + (0 % (r * 1 / 4) * 4 + r * 1 * (0 / (r * 1 / 4)) + n / r * (r * 1) / r * 0) = y := by
      rw [Nat.zero_mod, Nat.zero_div]; exact Ptr.add_zero _
    cases path with
    | serial =>
      have := Items.Hits.loop (mem_tasks2 (C := C) (fun p i =>
        let q := L * i
        let sp := r * 1 * p
        bfly (fun j : Fin r => vec L (x + (q + r * sp + r * 1 * j.val)))
          (fun k : Fin (r - 1) => dup L (W + (r * sp + n / r * (r * 1) + (k.val + 1))))
          (fun k : Fin r => vec L (y + (q + sp + n / r * (r * 1) / r * k.val)))
          (fun X T => ditOut (V := Fin L → C) B X (twSerial inv T))) h3 (cnt_pos (s := r * 1) (L := L) (by omega) hL)) (bfly_hits hL (by omega)) LoopKind.serial
      exact this
    | omp =>
      have h4 : 0 < n / r * (r * 1) / r / 4 := by
        rw [Nat.mul_one, Nat.mul_div_cancel _ (by omega)]
        exact Nat.div_pos (by omega) (by omega)
      have := Items.Hits.loop (mem_tasks1 (C := C) (fun i =>
        let p := i / (r * 1 / 4)
        let q := i % (r * 1 / 4) * 4
        let sp := r * 1 * p
        bfly (fun j : Fin r => vec 4 (x + (q + r * sp + r * 1 * j.val)))
          (fun _ : Fin 1 => dup 4 (W + sp))
          (fun k : Fin r => vec 4 (y + (q + sp + n / r * (r * 1) / r * k.val)))
          (fun X T => ditOut (V := Fin 4 → C) B X (twOmp inv T))) h4) (bfly_hits (by omega) (by omega)) LoopKind.omp
      have e : ∀ z : Ptr, z = y → z.loc = y.loc := fun z h => by rw [h]
      rw [e _ (show vec 4 (y + (0 % (r * 1 / 4) * 4 + r * 1 * (0 / (r * 1 / 4)) + n / r * (r * 1) / r * (0 : Nat))) ⟨0, by omega⟩ = y from e2)] at this
      exact this

theorem mixCore_hits {r b : Nat} (S : BFT r b) (tw : Nat → Fin b → Nat) (path : Path) {n : Nat} (x y W : Ptr)
    (hr : 0 < r) (hn : r ≤ n) : (mixCore C S 1 tw path n 1 x y W).Hits y.loc := by
  unfold mixCore
  cases path with
  | serial =>
    have h1 : 0 < cnt 1 1 := cnt_pos (by omega) (by omega)
    exact Items.Hits.loop (mem_tasks2 _ (Nat.div_pos hn hr) h1) (bfly_hits' (by omega) hr (by simp [vec, Ptr.add_zero])) _
  | omp =>
    have h1 : 0 < n * 1 / (r * 1) := Nat.div_pos (by omega) (by omega)
    exact Items.Hits.loop (mem_tasks1 _ h1) (bfly_hits' (by omega) hr (by simp [vec, Ptr.add_zero])) _

omit [DArith F] in
theorem anyInner_hits {l : Loc} (k i : Nat) (xa wa : Nat → Ptr) (js : List Nat) (z : C) (κ : C → Task C)
    (h : ∀ z, (κ z).Hits l) : (anyInner C k i xa wa js z κ).Hits l := by
  induction js generalizing z with
  | nil => exact h z
  | cons j js ih =>
    refine .load fun a => ?_
    split
    · exact .load fun w => ih _
    · exact .ub

theorem anyBody_hits (k : Nat) (xa wa : Nat → Ptr) (wip : Option (Nat → Ptr)) (ya : Nat → Ptr) {m : Nat} (hm : 0 < m) :
    (anyBody C k xa wa wip ya (List.range m)).Hits (ya 0).loc := by
  obtain ⟨m, rfl⟩ : ∃ m', m = m' + 1 := ⟨m - 1, by omega⟩
  rw [List.range_succ_eq_map]
  refine anyInner_hits _ _ _ _ _ _ _ fun z => ?_
  cases wip with
  | none => exact .here
  | some w => exact .load fun t => .here

theorem mixAny_hits (inv : Bool) (path : Path) (r : Nat) {n : Nat} (eo : Bool) (x y W : Ptr) (hn : 0 < n) :
    (mixAny C inv path r n 1 eo x y W).Hits y.loc := by
  rw [mixAny]
  have ub : Items.Hits (C := C) y.loc [([.ub], true)] := ⟨_, List.mem_cons_self, _, List.mem_cons_self, .ub⟩
  split
  · exact ub
  · rename_i k hk
    have e : y + (0 + 1 * 0) = y := Ptr.add_zero _
    split
    · rename_i hkn
      refine Items.Hits.left (Items.Hits.loop (mem_tasks1 _ (show 0 < 1 by omega)) ?_ _) _
      have := anyBody_hits (C := C) k (fun j => x + (0 + 1 * j)) (fun a => W + mixIdx inv (n * 1) (1 * a)) none
        (fun i => y + (0 + 1 * i)) (m := k) (by omega)
      rw [e] at this
      exact this
    · rename_i hkn
      split
      · exact ub
      · rename_i h2
        refine Items.Hits.left ?_ _
        have hdvd : 0 < n / k := by
          have := findK_dvd n _ _ _ rfl hk
          exact Nat.div_pos (Nat.le_of_dvd hn this) (by omega)
        have := anyBody_hits (C := C) k (fun j => x + (0 + 1 * 0 + n / k * 1 * j)) (fun a => W + mixIdx inv (n * 1) (n / k * 1 * a))
          (some fun i => W + mixIdx inv (n * 1) (i * (1 * 0))) (fun i => y + (0 + 1 * 0 * k + 1 * i)) (m := k) (by omega)
        rw [show y + (0 + 1 * 0 * k + 1 * 0) = y by simp [Ptr.add_zero]] at this
        cases path with
        | serial => exact Items.Hits.loop (mem_tasks2 _ hdvd (show 0 < 1 by omega)) this _
        | omp => exact Items.Hits.loop (mem_tasks1 _ (show 0 < n / k * 1 by omega)) this _

theorem mixFFT_hits (inv : Bool) (path : Path) {n : Nat} (x y W : Ptr) (hn : 2 ≤ n)
    (h : n ≠ 2 ∧ n ≠ 3 ∧ n ≠ 4 ∧ n ≠ 5 ∧ n ≠ 8) : (mixFFT C inv path n 1 false x y W).Hits y.loc := by
  rw [mixFFT]
  rw [dif_neg (by omega)]
  split
  · rw [if_neg (by omega)]
    exact Items.Hits.left (mixCore_hits _ _ _ _ _ _ (by omega) (by omega)) _
  split
  · rw [if_neg (by omega)]
    exact Items.Hits.left (mixCore_hits _ _ _ _ _ _ (by omega) (by omega)) _
  split
  · rw [if_neg (by omega)]
    exact Items.Hits.left (mixCore_hits _ _ _ _ _ _ (by omega) (by omega)) _
  split
  · rw [if_neg (by omega)]
    exact Items.Hits.left (mixCore_hits _ _ _ _ _ _ (by omega) (by omega)) _
  split
  · rw [if_neg (by omega)]
    exact Items.Hits.left (mixCore_hits _ _ _ _ _ _ (by omega) (by omega)) _
  · exact mixAny_hits _ _ _ _ _ _ _ (by omega)

theorem sixPart_hits (iv : Nat → Option (Nat × Nat)) (kind : LoopKind) (inv : Bool) (mode : ScaleMode) {n : Nat}
    (x y W Ws : Ptr) (hn : 8 < n) : (sixPart C iv kind inv mode n x y W Ws).Hits y.loc := by
  unfold sixPart
  refine Items.Hits.right _ (Items.Hits.left ?_ _)
  refine Items.Hits.loop (mem_tasks1 _ (show 0 < n by omega)) ?_ _
  have := (Items.Hits.region (difFFT_hits (C := C) (bf8 inv) 4 inv .serial .scale_1 false (x + 0 * n) (y + 0 * n) Ws (by omega) hn)).toProg
  rw [show y + 0 * n = y by rw [Nat.zero_mul]; exact Ptr.add_zero _] at this
  unfold sixRow
  rw [show y + 0 * n = y by rw [Nat.zero_mul]; exact Ptr.add_zero _]
  exact this

theorem eightFFT_hits (thr : Thr) (iv : Nat → Option (Nat × Nat)) (inv : Bool) (mode : ScaleMode) {n : Nat}
    (x y W Wm Ws : Ptr) (hn : 0 < n) : (eightFFT C thr iv inv mode n x y W Wm Ws).Hits y.loc := by
  unfold eightFFT
  have h0 : 0 < cnt (n * n) 2 := cnt_pos (Nat.mul_pos hn hn) (by omega)
  have h1 : (eightPre C inv mode (8 * (n * n)) x y W 0).Hits y.loc := by
    unfold eightPre
    exact bfly_hits' (by omega) (by omega) (by simp [vec, Ptr.add_zero])
  simp only
  split
  · exact Code.Hits.left (Code.Hits.loop (mem_tasks1 _ h0) h1 _) _
  · exact (Items.Hits.left (Items.Hits.loop (mem_tasks1 _ h0) h1 _) _).region

theorem stockItems_hits (dit : Bool) (rad : Radix) (inv : Bool) (path : Path) (mode : ScaleMode) {N : Nat} (x y W : Ptr)
    (hN : rad.num < N) : (stockItems C dit rad inv path mode N x y W).Hits y.loc := by
  cases dit <;> cases rad
  · exact difFFT_hits _ _ _ _ _ _ _ _ _ (by omega) hN
  · exact difFFT_hits _ _ _ _ _ _ _ _ _ (by omega) hN
  · exact difFFT_hits _ _ _ _ _ _ _ _ _ (by omega) hN
  · exact ditFFT_hits _ _ _ _ _ _ _ _ (by omega) (by omega) hN
  · exact ditFFT_hits _ _ _ _ _ _ _ _ (by omega) (by omega) hN
  · exact ditFFT_hits _ _ _ _ _ _ _ _ (by omega) (by omega) hN

/-- more than one stage -/
def AlgoKind.Big (n : Nat) : AlgoKind → Prop
  | .stock _ rad => rad.num < n
  | .six => ∃ k, n = 2 ^ k ∧ 16 ≤ k
  | .mixed => True

theorem dispatch_hits {n : Nat} (h : n ≠ 2 ∧ n ≠ 3 ∧ n ≠ 4 ∧ n ≠ 5 ∧ n ≠ 8) {kind : AlgoKind} (hd : dispatch (logOf n) = some kind) :
    kind.Big n := by
  cases hl : logOf n with
  | none => rw [hl] at hd; cases hd; trivial
  | some k =>
    have hk := logOf_some hl
    rw [hl] at hd
    subst hk
    clear hl
    unfold dispatch at hd
    split at hd <;> cases hd <;>
      first
      | (rename_i e; cases e; exact ⟨_, rfl, by omega⟩)
      | simp_all [Radix.num, AlgoKind.Big]

theorem FFT0.call_hits {thr : Thr} {o : FFT0} {n : Nat} {e : Entry} {x y : Ptr} {h : Heap C} (hn : ValidLen n)
    (hr : o.Ready C thr n h) (hu : n ≠ 2 ∧ n ≠ 3 ∧ n ≠ 4 ∧ n ≠ 5 ∧ n ≠ 8) : (o.call C thr e x y).Hits y.loc := by
  rw [FFT0.call_eq]
  unfold FFT0.obj_call
  have := hr.obj
  split at this
  · rename_i hd
    have := logOf_some (dispatch_none hd)
    have := hn.two
    omega
  · rename_i kind hd
    obtain ⟨a, ha, hk, hp, hra⟩ := this
    rw [ha]
    subst hk
    have hus := AlgoKind.usable_of_dispatch hd
    have hdh := dispatch_hits hu hd
    simp only
    unfold Algo.transform
    unfold Algo.Ready at hra
    split
    · rename_i dit rad hk
      rw [hk] at hra hus hdh
      obtain ⟨k, hnk, h2, h3⟩ := hus
      have hlog : a.logN = k := Nat.pow_right_injective (le_refl 2) (hra.1.symm.trans hnk)
      rw [hlog]
      unfold stockRun
      rw [if_neg (by omega)]
      exact (stockItems_hits _ _ _ _ _ _ _ _ (hnk ▸ hdh)).region
    · rename_i hk
      rw [hk] at hra hus hdh
      obtain ⟨k, hnk, h2, h3⟩ := hus
      obtain ⟨k', hnk', h4⟩ := hdh
      have hlog : a.logN = k := Nat.pow_right_injective (le_refl 2) (hra.1.symm.trans hnk)
      have hkk : k = k' := Nat.pow_right_injective (le_refl 2) (hnk.symm.trans hnk')
      rw [hlog]
      unfold sixRun
      rw [if_neg (by omega), if_neg (by omega)]
      split
      · exact eightFFT_hits _ _ _ _ _ _ _ _ _ (Nat.two_pow_pos _)
      · refine (sixPart_hits _ _ _ _ _ _ _ _ ?_).region
        calc 8 < 2 ^ 4 := by norm_num
          _ ≤ 2 ^ (k / 2) := Nat.pow_le_pow_right (by omega) (by omega)
    · rename_i hk
      rw [hk] at hra
      rw [hra.1]
      exact Code.Hits.left (mixFFT_hits _ _ _ _ _ hn.two hu).region _

/-! ### The objects with a work area -/

theorem RFFT.fwd_hits {thr : Thr} {o : RFFT} {e : Entry} {x y : Ptr} (hN : 2 ≤ o.N) (he : e.isInv = false) :
    (o.call C thr e x y).Hits y.loc := by
  have key : ∀ mode, (o.fwdWith C thr mode x y).Hits y.loc := by
    intro mode
    unfold RFFT.fwdWith
    rw [if_neg (by omega), if_neg (by omega)]
    refine Code.Hits.left (Code.Hits.left (Code.Hits.right _ ?_) _) _
    exact ⟨_, List.mem_cons_self, _, List.mem_cons_self, .load fun _ => .here⟩
  cases e <;> first | exact key _ | cases he

theorem DCT0.call_hits {thr : Thr} {o : DCT0} {e : DctEntry} {x y z : Ptr} (hN : 2 ≤ o.N) (hN' : o.rfft.N = o.N) :
    (o.call C thr e x y z).Hits z.loc := by
  have fwd : ∀ re : Entry, re.isInv = false → (o.fwdWith C thr re x y z).Hits z.loc := by
    intro re hre
    unfold DCT0.fwdWith
    rw [if_neg (by omega)]
    exact Code.Hits.left (Code.Hits.right _ (RFFT.fwd_hits (by omega) hre)) _
  have inv : ∀ re : Entry, (o.invWith C thr re x y z).Hits z.loc := by
    intro re
    unfold DCT0.invWith
    rw [if_neg (by omega)]
    refine Code.Hits.left (Code.Hits.left (Code.Hits.left ?_ _) _) _
    exact ⟨_, List.mem_cons_self, _, List.mem_cons_self, .load fun _ => .here⟩
  cases e <;> first | exact fwd _ rfl | exact inv _

theorem Bluestein.call_hits {thr : Thr} {o : Bluestein} {e : Entry} {x : Ptr} (hN : 2 ≤ o.N) :
    (o.call C thr e x).Hits o.a.loc := by
  have key : ∀ inv mode, (o.run C thr inv mode x).Hits o.a.loc := by
    intro inv mode
    unfold Bluestein.run
    rw [if_neg (by omega)]
    refine Code.Hits.left (Code.Hits.left (Code.Hits.left (Code.Hits.left (Code.Hits.left (Code.Hits.left (Code.Hits.left ?_ _) _) _) _) _) _) _
    exact ⟨_, List.mem_cons_self, _, List.mem_cons_self, .load fun _ => .here⟩
  cases e <;> exact key _ _

/-- `Ready` when the contents of the work area change -/
theorem FFT.Ready.work_frame {thr : Thr} {o : FFT} {n : Nat} {h h' : Heap C} (r : o.Ready C thr n h)
    (s : Same (insert 0 {b | b ∈ o.fft.blocks}) h h') (hn : ∀ l, h' l = none ↔ h l = none) : o.Ready C thr n h' := by
  refine ⟨r.fft.frame s, ?_⟩
  obtain ⟨b, hw, hy, ha⟩ := r.work
  exact ⟨b, hw, hy, fun i hi hc => ha i hi ((hn _).1 hc)⟩

variable [Inhabited C]

/-- The work area of an object: a cell all calls store to; what the calls write; nothing of that disturbs later calls. -/
theorem Kind.hot {thr : Thr} {k : Kind} {n : Nat} {o : (k.cls C thr).Obj} {E : Set Nat} {w : World C}
    (ow : Owned E ((k.spec C thr).blocks o) w) (hr : (k.spec C thr).Ready o n w.heap) (hu : k.usesWork n) :
    ∃ (l0 : Loc) (Wk : Set Loc), (∀ l ∈ Wk, l.1 ∈ (k.spec C thr).blocks o) ∧
      ∀ h' : Heap C, (∀ l : Loc, l.1 ∉ E → l ∉ Wk → h' l = w.heap l) → (∀ l, h' l = none ↔ w.heap l = none) →
        ∀ c : (k.cls C thr).Call, (k.spec C thr).Valid n c E h' →
          ∃ (R : Set Loc) (h'' : Heap C), Good R (k.writes n c ∪ Wk) ((k.cls C thr).call o c) h' h'' ∧
            Code.Hits l0 ((k.cls C thr).call o c) := by
  have own : ∀ h' : Heap C, (∀ l, h' l = none ↔ w.heap l = none) → Owned E ((k.spec C thr).blocks o) ⟨h', w.live⟩ :=
    fun h' hn => ⟨⟨ow.wf.null, fun l hl => (hn l).2 (ow.wf.dead l hl)⟩, ow.nodup, ow.disj, ow.live⟩
  have zE : (0 : Nat) ∉ E := fun h => ow.wf.null (by rw [ow.live]; exact Or.inl h)
  have zB : (0 : Nat) ∉ (k.spec C thr).blocks o := fun h => ow.wf.null (by rw [ow.live]; exact Or.inr h)
  cases k with
  | complex =>
    have ow0 : Owned E (FFT.blocks o) w := ow
    have hr : FFT.Ready C thr o n w.heap := hr
    have zB : 0 ∉ FFT.blocks o := zB
    obtain ⟨b, hw, hy, ha⟩ := hr.work
    have yb : (FFT.y o).buf ∈ FFT.blocks o := by simp [FFT.blocks, hw, hy, Ptr.base]
    have ynb : (FFT.y o).buf ∉ (FFT.fft o).blocks := by
      have := ow0.nodup
      unfold FFT.blocks at this
      rw [hw] at this
      simp only [Option.toList, List.nodup_append, List.mem_singleton] at this
      intro hb
      rw [hy] at hb
      exact this.2.2 _ hb _ rfl rfl
    refine ⟨(FFT.y o).loc, Region (FFT.y o) n, fun l hl => by rw [region_buf hl]; exact yb, ?_⟩
    rintro h' hs hn ⟨e, x⟩ hv
    have hr' : FFT.Ready C thr o n h' := by
      refine hr.work_frame (fun l hl => hs l ?_ ?_) hn
      · rcases hl with h | h
        · rw [h]; exact zE
        · exact ow0.disj _ (List.mem_append_left _ h)
      · intro hl'
        rw [region_buf hl'] at hl
        rcases hl with h | h
        · exact zB (h ▸ yb)
        · exact ynb h
    obtain ⟨v, hax⟩ := Filled.arr (show Filled h' x n from hv.arr)
    have ow' : Owned E (FFT.blocks o) ⟨h', w.live⟩ := own h' hn
    obtain ⟨h'', g, -, -⟩ := FFT.call_good (w := ⟨h', w.live⟩) (rest := []) (e := e) hv.len ow' (by simp) hr' hax
      (fun h => ow'.disj _ h hv.user)
    exact ⟨_, h'', g, FFT0.call_hits (y := FFT.y o) hv.len hr'.fft hu⟩
  | dct =>
    have ow0 : Owned E (DCT.blocks o) w := ow
    have hr : DCT.Ready C thr o n w.heap := hr
    have zB : 0 ∉ DCT.blocks o := zB
    obtain ⟨by1, bz, bV, bR, yz, yV, zV, yR, zR, VR⟩ := hr.bufs ow0.nodup
    refine ⟨(DCT.z o).loc, Region (DCT.y o) n ∪ Region (DCT.z o) n, ?_, ?_⟩
    · rintro l (h | h)
      · rw [region_buf h]; exact by1
      · rw [region_buf h]; exact bz
    rintro h' hs hn ⟨e, x⟩ hv
    have ynb : (DCT.y o).buf ∉ (DCT.dct o).blocks := by
      obtain ⟨b3, e3, e3', -⟩ := hr.dct.weight
      unfold DCT0.blocks
      rw [e3]
      simp only [Option.toList, List.mem_append, List.mem_singleton, not_or]
      exact ⟨yR, fun h => yV (by rw [h, e3']; rfl)⟩
    have znb : (DCT.z o).buf ∉ (DCT.dct o).blocks := by
      obtain ⟨b3, e3, e3', -⟩ := hr.dct.weight
      unfold DCT0.blocks
      rw [e3]
      simp only [Option.toList, List.mem_append, List.mem_singleton, not_or]
      exact ⟨zR, fun h => zV (by rw [h, e3']; rfl)⟩
    have hr' : DCT.Ready C thr o n h' := by
      refine ⟨hr.dct.frame fun l hl => hs l ?_ ?_, ?_, ?_⟩
      · rcases hl with h | h
        · rw [h]; exact zE
        · exact ow0.disj _ (List.mem_append_left _ h)
      · rintro (hl' | hl')
        · rw [region_buf hl'] at hl
          rcases hl with h | h
          · exact zB (h ▸ by1)
          · exact ynb h
        · rw [region_buf hl'] at hl
          rcases hl with h | h
          · exact zB (h ▸ bz)
          · exact znb h
      · obtain ⟨b, hw, hy, ha⟩ := hr.work1
        exact ⟨b, hw, hy, fun i hi hc => ha i hi ((hn _).1 hc)⟩
      · obtain ⟨b, hw, hy, ha⟩ := hr.work2
        exact ⟨b, hw, hy, fun i hi hc => ha i hi ((hn _).1 hc)⟩
    obtain ⟨v, hax⟩ := Filled.arr (show Filled h' x n from hv.arr)
    have ow' : Owned E (DCT.blocks o) ⟨h', w.live⟩ := own h' hn
    obtain ⟨h'', g, -, -⟩ := DCT.call_good (w := ⟨h', w.live⟩) (e := e) hv.len ow' hr' hax (fun h => ow'.disj _ h hv.user)
    have hl := hr.dct.len
    have hpos := hv.len.pos
    have hu : n ≠ 1 := hu
    refine ⟨_, h'', g.mono subset_rfl (by rw [Set.union_assoc]; exact subset_rfl), DCT0.call_hits (by omega) ?_⟩
    rw [hl]; exact hr.dct.rfft.len
  | bluestein =>
    have ow0 : Owned E (Bluestein.blocks o) w := ow
    have zB : 0 ∉ Bluestein.blocks o := zB
    by_cases h1 : 1 ≤ n
    · have hr : Bluestein.Ready1 C thr o n w.heap := hr h1
      obtain ⟨ba, bb, bW, bF, ab, aW, bW', aF, bF', WF⟩ := hr.bufs ow0.nodup
      obtain ⟨b0, hw0, hy0, ha0⟩ := hr.fft.work
      have yb : (Bluestein.fft o).y.buf ∈ (Bluestein.fft o).blocks := by simp [FFT.blocks, hw0, hy0, Ptr.base]
      have ynb : (Bluestein.fft o).y.buf ∉ (Bluestein.fft o).fft.blocks := by
        have := ow0.nodup
        unfold Bluestein.blocks FFT.blocks at this
        rw [hw0] at this
        simp only [Option.toList, List.nodup_append, List.mem_singleton] at this
        intro hb
        rw [hy0] at hb
        exact this.1.2.2 _ hb _ rfl rfl
      refine ⟨(Bluestein.a o).loc, Region (Bluestein.a o) (Bluestein.L o) ∪ Region (Bluestein.b o) (Bluestein.L o) ∪
        Region (Bluestein.fft o).y (Bluestein.L o), ?_, ?_⟩
      · rintro l ((h | h) | h)
        · rw [region_buf h]; exact ba
        · rw [region_buf h]; exact bb
        · rw [region_buf h]; exact bF _ yb
      rintro h' hs hn ⟨e, x⟩ hv
      have hr' : Bluestein.Ready1 C thr o n h' := by
        refine ⟨hr.len, hr.pad, hr.fft.work_frame (fun l hl => hs l ?_ ?_) hn, ?_, ?_, ?_⟩
        · rcases hl with h | h
          · rw [h]; exact zE
          · exact ow0.disj _ (bF _ (List.mem_append_left _ h))
        · rintro ((hl' | hl') | hl')
          · rw [region_buf hl'] at hl
            rcases hl with h | h
            · exact zB (h ▸ ba)
            · exact aF (List.mem_append_left _ h)
          · rw [region_buf hl'] at hl
            rcases hl with h | h
            · exact zB (h ▸ bb)
            · exact bF' (List.mem_append_left _ h)
          · rw [region_buf hl'] at hl
            rcases hl with h | h
            · exact zB (h ▸ bF _ yb)
            · exact ynb h
        · obtain ⟨b, hw, hy, ha⟩ := hr.work1
          exact ⟨b, hw, hy, fun i hi hc => ha i hi ((hn _).1 hc)⟩
        · obtain ⟨b, hw, hy, ha⟩ := hr.work2
          exact ⟨b, hw, hy, fun i hi hc => ha i hi ((hn _).1 hc)⟩
        · obtain ⟨b, hw, hy, ha⟩ := hr.weight
          refine ⟨b, hw, hy, fun i hi => ?_⟩
          have hb : (Bluestein.W o).buf = b := by rw [hy]; rfl
          rw [hs _ ?_ ?_]
          · exact ha i hi
          · show b ∉ E
            rw [← hb]; exact ow0.disj _ bW
          · rintro ((hl' | hl') | hl')
            · have := region_buf hl'
              exact aW (this.symm.trans hb.symm)
            · have := region_buf hl'
              exact bW' (this.symm.trans hb.symm)
            · have := region_buf hl'
              refine WF ?_
              rw [hb, show b = _ from this]; exact yb
      obtain ⟨v, hax⟩ := Filled.arr (show Filled h' x n from hv.arr)
      have ow' : Owned E (Bluestein.blocks o) ⟨h', w.live⟩ := own h' hn
      obtain ⟨h'', g, -, -⟩ := Bluestein.call_good (w := ⟨h', w.live⟩) (e := e) hv.pos hv.le ow' hr' hax (fun h => ow'.disj _ h hv.user)
      have hu : n ≠ 1 := hu
      have hl := hr.len
      exact ⟨_, h'', g, Bluestein.call_hits (by omega)⟩
    · refine ⟨(0, 0), ∅, fun _ h => h.elim, ?_⟩
      rintro h' hs hn ⟨e, x⟩ hv
      exact absurd hv.pos h1
  | real => exact hu.elim
  | fft0 => exact hu.elim
  | dct0 => exact hu.elim

/-! ### Two threads -/

omit [Inhabited C] in
theorem Process.Reach.trans {α : Type} {a b c : Process C α} (h : Process.Reach a b) (h' : Process.Reach b c) : Process.Reach a c := by
  induction h with
  | refl _ => exact h'
  | step s _ ih => exact .step s (ih h')

omit [Inhabited C] in
/-- a thread runs code -/
theorem Process.Reach.code {α : Type} {c d : Config C} (r : OTFFT.Reach c d) (live : Set Nat) (next : Act C α) (i : Nat) :
    ∀ ts : List (Thread C α), ts[i]? = some ⟨c.cur, c.rest, next⟩ →
      Process.Reach ⟨ts, ⟨c.heap, live⟩⟩ ⟨ts.set i ⟨d.cur, d.rest, next⟩, ⟨d.heap, live⟩⟩ := by
  induction r with
  | refl c =>
    intro ts h
    have : ts.set i ⟨c.cur, c.rest, next⟩ = ts := by
      obtain ⟨hi, e⟩ := List.getElem?_eq_some_iff.1 h
      rw [← e]; exact List.set_getElem_self hi
    rw [this]; exact .refl _
  | @step a b c s _ ih =>
    intro ts h
    obtain ⟨hi, -⟩ := List.getElem?_eq_some_iff.1 h
    obtain ⟨c1, r1, h1⟩ := a
    obtain ⟨c2, r2, h2⟩ := b
    have := ih (ts.set i ⟨c2, r2, next⟩) (by simp [hi])
    rw [List.set_set] at this
    exact .step (.thread i h (.code s)) this

omit [Inhabited C] in
/-- a thread that has not started yet starts its first call and runs up to a store -/
theorem Process.Reach.first {α : Type} {R D : Set Loc} {c : Code C} {h h' : Heap C} (g : Good R D c h h') {l : Loc} (hl : c.Hits l)
    (live : Set Nat) (next : Act C α) (i : Nat) (ts : List (Thread C α)) (hi : ts[i]? = some (Thread.init (.run c next))) :
    ∃ (d : Config C), Process.Reach ⟨ts, ⟨h, live⟩⟩ ⟨ts.set i ⟨d.cur, d.rest, next⟩, ⟨d.heap, live⟩⟩ ∧
      (∃ p ∈ d.cur, Prog.access p = some (l, true)) ∧ (∀ l', l' ∉ D → d.heap l' = h l') ∧ ∀ l', d.heap l' = none ↔ h l' = none := by
  obtain ⟨d, r, p, f, n⟩ := (g.schedF [] (by simp)).hits (Or.inr hl)
  refine ⟨d, ?_, p, f, n⟩
  obtain ⟨hi', -⟩ := List.getElem?_eq_some_iff.1 hi
  have := Process.Reach.code r live next i (ts.set i ⟨[], c, next⟩) (by simp [hi'])
  rw [List.set_set] at this
  exact .step (.thread i hi (.start (by simp))) this

theorem fork_race {thr : Thr} {w0 w : World C} {σ : Vars C thr} {js : List (Job C thr)} (I : PoolInv w0.live σ w)
    {i j : Nat} (hij : i ≠ j) {a b : Job C thr} (ha : js[i]? = some a) (hb : js[j]? = some b) {s : Nat} {k : Kind} {n : Nat}
    {o : (k.cls C thr).Obj} {c d : (k.cls C thr).Call} {p q : Client C thr} (pa : a.prog = .shared s k c p) (pb : b.prog = .shared s k d q)
    (hs : σ.left js s = some ⟨k, o, some n⟩) (hu : k.usesWork n) (oc : k.callOK n c w.heap) (od : k.callOK n d w.heap)
    (uc : ∀ l ∈ k.arrays n c, l.1 ∈ w0.live) (ud : ∀ l ∈ k.arrays n d, l.1 ∈ w0.live) (dj : Disjoint (k.arrays n c) (k.arrays n d)) :
    (forked σ js w).CanUB := by
  have hσ : σ s = some ⟨k, o, some n⟩ := by
    unfold Vars.left at hs
    exact (Vars.only_some hs).2
  have ob : oblocks (σ s) = (k.spec C thr).blocks o := by rw [hσ]; rfl
  have ow : Owned (w.live \ {b | b ∈ oblocks (σ s)}) ((k.spec C thr).blocks o) w := by rw [← ob]; exact I.owned s
  have h0 : 0 ∉ w0.live := fun h => I.wf.null ((I.live 0).2 (Or.inl h))
  have sub : w0.live ⊆ w.live \ {b | b ∈ oblocks (σ s)} := fun b hb => ⟨(I.live b).2 (Or.inl hb), fun h => I.out s b h hb⟩
  obtain ⟨l0, Wk, hW, hot⟩ := Kind.hot ow (I.ready s _ hσ n rfl) hu
  have valid : ∀ (h : Heap C) (e : (k.cls C thr).Call), k.callOK n e w.heap → (∀ l ∈ k.arrays n e, l.1 ∈ w0.live) →
      (∀ l ∈ k.arrays n e, h l = w.heap l) → (k.spec C thr).Valid n e (w.live \ {b | b ∈ oblocks (σ s)}) h := by
    intro h e oe ue he
    exact (k.foot C thr).valid_mono (Kind.valid_shape (A := k.arrays n e) oe subset_rfl ue h0 (fun l hl => by rw [he l hl]; exact ⟨id, id⟩)) sub
  obtain ⟨Ra, ha', ga, hita⟩ := hot w.heap (fun _ _ _ => rfl) (fun _ => Iff.rfl) c (valid _ c oc uc fun _ _ => rfl)
  -- the actions of the two threads
  have act : ∀ (x : Job C thr) (e : (k.cls C thr).Call) (r : Client C thr), x.prog = .shared s k e r →
      x.act σ js = .run ((k.cls C thr).call o e) (r.run (σ.left js) (σ.only x.takes)) := by
    intro x e r hx
    unfold Job.act
    rw [hx, Client.run, hs]
    simp only
    rw [Slot.call_same]
    rfl
  have ti : (js.map fun j => Thread.init (j.act σ js))[i]? = some (Thread.init (.run ((k.cls C thr).call o c) (p.run (σ.left js) (σ.only a.takes)))) := by
    rw [List.getElem?_map, ha, Option.map_some, act a c p pa]
  have tj : (js.map fun j => Thread.init (j.act σ js))[j]? = some (Thread.init (.run ((k.cls C thr).call o d) (q.run (σ.left js) (σ.only b.takes)))) := by
    rw [List.getElem?_map, hb, Option.map_some, act b d q pb]
  obtain ⟨d1, r1, ⟨p1, m1, e1⟩, f1, n1⟩ := Process.Reach.first ga hita w.live _ i _ ti
  have same1 : ∀ l ∈ k.arrays n d, d1.heap l = w.heap l := by
    intro l hl
    refine f1 l ?_
    rintro (h | h)
    · exact Set.disjoint_left.1 dj (Kind.writes_sub thr k n c h) hl
    · exact I.out s _ (by rw [ob]; exact hW l h) (ud l hl)
  obtain ⟨Rb, hb', gb, hitb⟩ := hot d1.heap (fun l hl hw => f1 l (by
    rintro (h | h)
    · exact hl (sub (uc l (Kind.writes_sub thr k n c h)))
    · exact hw h)) n1 d (valid _ d od ud same1)
  obtain ⟨d2, r2, ⟨p2, m2, e2⟩, f2, n2⟩ := Process.Reach.first gb hitb w.live _ j _ ((List.getElem?_set_ne hij).trans tj)
  refine ⟨_, r1.trans r2, Or.inr (Or.inl ⟨i, j, ⟨d1.cur, d1.rest, p.run (σ.left js) (σ.only a.takes)⟩,
    ⟨d2.cur, d2.rest, q.run (σ.left js) (σ.only b.takes)⟩, p1, p2, l0, true, true, hij, ?_, ?_, m1, m2, e1, e2, Or.inl rfl⟩)⟩
  · have := (List.getElem?_eq_some_iff.1 ti).1
    show ((List.set _ i _).set j _)[i]? = _
    rw [List.getElem?_set_ne hij.symm, List.getElem?_set_self this]
  · have := (List.getElem?_eq_some_iff.1 tj).1
    show ((List.set _ i _).set j _)[j]? = _
    rw [List.getElem?_set_self (by rw [List.length_set]; exact this)]

end OTFFT
