/-
Layer 1 for the six-step algorithm.
-/
import Verif.Proof.Tri
import Verif.Proof.Phase
import Verif.Proof.TablesMem
import Mathlib.Tactic.IntervalCases

noncomputable section

namespace OTFFT

set_option linter.unusedSectionVars false

variable {F C : Type} [DArith F] [CArith F C]

/-- A kernel body that writes (at most) the cells of `x` selected by `P`. -/
theorem tr_bfly_cells {L a b c : Nat} {rd : Fin a → Fin L → Ptr} {tw : Fin b → Fin L → Ptr}
    {wr : Fin c → Fin L → Ptr}
    {f : (Fin a → Fin L → C) → (Fin b → Fin L → C) → (Fin c → Fin L → C)}
    {h : Heap C} (xv : Fin a → Fin L → C) (wv : Fin b → Fin L → C) {x : Ptr} {P : Nat → Prop}
    {out : Nat → C} {RS : Set Loc}
    (hx : ∀ i l, h (rd i l).loc = some (some (xv i l)) ∧ (rd i l).loc ∈ RS)
    (hw : ∀ i l, h (tw i l).loc = some (some (wv i l)) ∧ (tw i l).loc ∈ RS)
    (hwr : ∀ i l, ∃ t, P t ∧ wr i l = x + t ∧ f xv wv i l = out t)
    (hal : ∀ t, P t → h (x + t).loc ≠ none)
    (hcov : ∀ t, P t → (∃ i l, wr i l = x + t) ∨ h (x + t).loc = some (some (out t))) :
    Tr RS (Cells x P) (bfly rd tw wr f) h () (h.upd (Cells x P) (onArr x out)) := by
  have key := tr_bfly (rd := rd) (tw := tw) (wr := wr) (f := f) (h := h) (xv := xv) (wv := wv)
    (tgt := onArr x out) (fun i l => (hx i l).1) (fun i l => (hw i l).1)
    (by
      intro i l
      obtain ⟨t, ht, e, _⟩ := hwr i l
      rw [e]; exact hal t ht)
    (by
      intro i l
      obtain ⟨t, ht, e, e'⟩ := hwr i l
      rw [e, onArr_at, e'])
  have e : h.upd {l | ∃ i j, (wr i j).loc = l} (onArr x out) = h.upd (Cells x P) (onArr x out) := by
    funext l
    by_cases h1 : l ∈ {l | ∃ i j, (wr i j).loc = l}
    · rw [Heap.upd_mem _ h1, Heap.upd_mem]
      obtain ⟨i, j, rfl⟩ := h1
      obtain ⟨t, ht, e, _⟩ := hwr i j
      exact ⟨t, ht, by rw [e]⟩
    · rw [Heap.upd_not _ h1]
      by_cases h2 : l ∈ Cells x P
      · rw [Heap.upd_mem _ h2]
        obtain ⟨t, ht, rfl⟩ := h2
        rcases hcov t ht with ⟨i, j, e⟩ | e
        · exact absurd ⟨i, j, by rw [e]⟩ h1
        · rw [e, onArr_at]
      · rw [Heap.upd_not _ h2]
  rw [e] at key
  refine key.mono ?_ ?_
  · rintro l (⟨i, j, rfl⟩ | ⟨i, j, rfl⟩)
    · exact (hx i j).2
    · exact (hw i j).2
  · rintro l ⟨i, j, rfl⟩
    obtain ⟨t, ht, e, _⟩ := hwr i j
    exact ⟨t, ht, by rw [e]⟩

/-- the index of the 2x2 block pair `{(u,v), (v,u)}` -/
def Blk (n u v : Nat) (t : Nat) : Prop :=
  t < n * n ∧ min (t % n / 2) (t / n / 2) = u ∧ max (t % n / 2) (t / n / 2) = v

section
variable {R D : Set Loc} {h : Heap C} {x y W Ws : Ptr} {v : Nat → C} {n len : Nat}

theorem six_phase (hn : 2 ∣ n) (task : Nat → Task C) (g : Nat → Nat → C)
    (htr : ∀ u v, u ≤ v → v < n / 2 → Tr (Cells x (Blk n u v) ∪ Region W len) (Cells x (Blk n u v))
      (task (sixIdx (n / 2) u v)) h ()
      (h.upd (Cells x (Blk n u v)) (onArr x fun t => g (t % n) (t / n))))
    (hWx : W.buf ≠ x.buf) (hRx : Region x (n * n) ⊆ R) (hRW : Region W len ⊆ R)
    (hDx : Region x (n * n) ⊆ D) :
    ∃ h', PhaseGood R D (tasks1 (sixL n) task) h h' ∧
      Arr h' x (n * n) (fun t => g (t % n) (t / n)) ∧ ∀ l, l ∉ Region x (n * n) → h' l = h l := by
  have hblk : ∀ {t}, t < n * n → min (t % n / 2) (t / n / 2) ≤ max (t % n / 2) (t / n / 2) ∧
      max (t % n / 2) (t / n / 2) < n / 2 := by
    intro t ht
    have hpos : 0 < n := by rcases Nat.eq_zero_or_pos n with h | h; simp [h] at ht; exact h
    have h1 := Nat.mod_lt t hpos
    have h2 : t / n < n := Nat.div_lt_of_lt_mul ht
    omega
  let own : Nat → Nat := fun t => sixIdx (n / 2) (min (t % n / 2) (t / n / 2))
    (max (t % n / 2) (t / n / 2))
  have hcells : ∀ u v, u ≤ v → v < n / 2 → Cells x (Blk n u v) =
      Cells x (fun t => t < n * n ∧ own t = sixIdx (n / 2) u v) := by
    intro u v huv hv
    ext l; constructor
    · rintro ⟨t, ⟨ht, e1, e2⟩, rfl⟩
      exact ⟨t, ⟨ht, by simp only [own, e1, e2]⟩, rfl⟩
    · rintro ⟨t, ⟨ht, e⟩, rfl⟩
      obtain ⟨e1, e2⟩ := sixIdx_inj (hblk ht).1 (hblk ht).2 huv hv e
      exact ⟨t, ⟨ht, e1, e2⟩, rfl⟩
  refine phase_garr (List.range (sixL n)) List.nodup_range
    (fun i => Cells x (fun t => t < n * n ∧ own t = i) ∪ Region W len) x (n * n) _ own ?_ ?_ ?_ ?_ hDx
  · intro i hi
    obtain ⟨u, v, huv, hv, rfl⟩ := sixIdx_surj (List.mem_range.1 hi)
    rw [← hcells u v huv hv]
    exact htr u v huv hv
  · intro t ht
    exact List.mem_range.2 (sixIdx_lt (hblk ht).1 (hblk ht).2)
  · rintro i hi l (⟨t, ⟨ht, e⟩, rfl⟩ | hl) t' ht' e'
    · have := Ptr.add_inj (Ptr.loc_inj e')
      subst this; exact e
    · exfalso
      rw [e', mem_region'] at hl
      exact hWx hl.1.symm
  · rintro i hi l (⟨t, ⟨ht, e⟩, rfl⟩ | hl)
    · exact hRx (mem_region ht)
    · exact hRW hl

theorem blk_cases {n u v t : Nat} (hb : Blk n u v t) : ∃ e f, e < 2 ∧ f < 2 ∧
    (t = (2 * u + e) + (2 * v + f) * n ∨ t = (2 * v + e) + (2 * u + f) * n) := by
  obtain ⟨ht, h1, h2⟩ := hb
  have hm := Nat.mod_add_div t n
  refine ⟨t % n % 2, t / n % 2, by omega, by omega, ?_⟩
  by_cases hle : t % n / 2 ≤ t / n / 2
  · left
    have e1 : 2 * u + t % n % 2 = t % n := by omega
    have e2 : 2 * v + t / n % 2 = t / n := by omega
    rw [e1, e2, Nat.mul_comm]; exact hm.symm
  · right
    have e1 : 2 * v + t % n % 2 = t % n := by omega
    have e2 : 2 * u + t / n % 2 = t / n := by omega
    rw [e1, e2, Nat.mul_comm]; exact hm.symm

theorem pos_mod {n c r : Nat} (hc : c < n) : (c + r * n) % n = c ∧ (c + r * n) / n = r := by
  rw [Nat.mul_comm]; exact ⟨idx_mod hc r, idx_div hc r⟩

theorem pos_lt {n c r : Nat} (hc : c < n) (hr : r < n) : c + r * n < n * n := by
  rw [Nat.mul_comm r]; exact idx_lt hc hr

theorem blk_of {n u v e f : Nat} (hn : 2 ∣ n) (huv : u ≤ v) (hv : v < n / 2) (he : e < 2) (hf : f < 2) :
    Blk n u v (2 * u + e + (2 * v + f) * n) ∧ Blk n u v (2 * v + e + (2 * u + f) * n) := by
  refine ⟨⟨pos_lt (by omega) (by omega), ?_⟩, ⟨pos_lt (by omega) (by omega), ?_⟩⟩
  · obtain ⟨e1, e2⟩ := pos_mod (n := n) (c := 2 * u + e) (r := 2 * v + f) (by omega)
    rw [e1, e2]; omega
  · obtain ⟨e1, e2⟩ := pos_mod (n := n) (c := 2 * v + e) (r := 2 * u + f) (by omega)
    rw [e1, e2]; omega

theorem blk_alloc (hax : Arr h x (n * n) v) {u w t : Nat} (hb : Blk n u w t) : h (x + t).loc ≠ none := by
  rw [hax t hb.1]; simp

theorem cell_ok {S : Set Loc} (hax : Arr h x (n * n) v) {u w t : Nat} (hb : Blk n u w t) {p : Ptr}
    (e : p = x + t) : h p.loc = some (some (v t)) ∧ p.loc ∈ Cells x (Blk n u w) ∪ S := by
  subst e; exact ⟨hax t hb.1, Or.inl ⟨t, hb, rfl⟩⟩

theorem two_cases {e : Nat} (he : e < 2) : e = 0 ∨ e = 1 := by omega

theorem sixTransp_tr (hn : 2 ∣ n) {u w : Nat} (huw : u ≤ w) (hw : w < n / 2)
    (hax : Arr h x (n * n) v) :
    Tr (Cells x (Blk n u w) ∪ Region W len) (Cells x (Blk n u w)) (sixTransp C n (2 * u) (2 * w) x) h ()
      (h.upd (Cells x (Blk n u w)) (onArr x fun t => v (t / n + t % n * n))) := by
  have hb := fun e f he hf => blk_of (n := n) (u := u) (v := w) (e := e) (f := f) hn huw hw he hf
  have g1 : ∀ e f, e < 2 → f < 2 → ((2 * u + e + (2 * w + f) * n) / n + (2 * u + e + (2 * w + f) * n) % n * n) =
      2 * w + f + (2 * u + e) * n := by
    intro e f he hf
    obtain ⟨e1, e2⟩ := pos_mod (n := n) (c := 2 * u + e) (r := 2 * w + f) (by omega)
    rw [e1, e2]
  have g2 : ∀ e f, e < 2 → f < 2 → ((2 * w + e + (2 * u + f) * n) / n + (2 * w + e + (2 * u + f) * n) % n * n) =
      2 * u + f + (2 * w + e) * n := by
    intro e f he hf
    obtain ⟨e1, e2⟩ := pos_mod (n := n) (c := 2 * w + e) (r := 2 * u + f) (by omega)
    rw [e1, e2]
  unfold sixTransp
  split
  · rename_i hne
    simp only
    refine tr_bfly_cells (xv := fun i l => v (![2 * w + l.val + (2 * u + 0) * n,
        2 * w + l.val + (2 * u + 1) * n, 2 * u + l.val + (2 * w + 0) * n,
        2 * u + l.val + (2 * w + 1) * n] i)) (wv := Fin.elim0) ?_ (fun i => i.elim0) ?_
        (fun t ht => blk_alloc hax ht) ?_
    · intro i l
      have hl := l.isLt
      fin_cases i
      · have e : vec 2 (x + (2 * w + 2 * u * n)) l = x + (2 * w + l.val + (2 * u + 0) * n) := by
          rw [vec, Ptr.add_add]; apply Ptr.add_congr; ring
        exact cell_ok hax (hb _ _ hl (by omega)).2 e
      · have e : vec 2 (x + (2 * w + 2 * u * n + n)) l = x + (2 * w + l.val + (2 * u + 1) * n) := by
          rw [vec, Ptr.add_add]; apply Ptr.add_congr; ring
        exact cell_ok hax (hb _ _ hl (by omega)).2 e
      · have e : vec 2 (x + (2 * u + 2 * w * n)) l = x + (2 * u + l.val + (2 * w + 0) * n) := by
          rw [vec, Ptr.add_add]; apply Ptr.add_congr; ring
        exact cell_ok hax (hb _ _ hl (by omega)).1 e
      · have e : vec 2 (x + (2 * u + 2 * w * n + n)) l = x + (2 * u + l.val + (2 * w + 1) * n) := by
          rw [vec, Ptr.add_add]; apply Ptr.add_congr; ring
        exact cell_ok hax (hb _ _ hl (by omega)).1 e
    · intro i l
      have hl := l.isLt
      fin_cases i
      · refine ⟨_, (hb l.val 1 hl (by omega)).1, ?_, ?_⟩
        · show vec 2 (x + (2 * u + 2 * w * n + n)) l = _
          rw [vec, Ptr.add_add]; apply Ptr.add_congr; ring
        · rw [g1 _ _ hl (by omega)]; fin_cases l <;> rfl
      · refine ⟨_, (hb l.val 0 hl (by omega)).1, ?_, ?_⟩
        · show vec 2 (x + (2 * u + 2 * w * n)) l = _
          rw [vec, Ptr.add_add]; apply Ptr.add_congr; ring
        · rw [g1 _ _ hl (by omega)]; fin_cases l <;> rfl
      · refine ⟨_, (hb l.val 1 hl (by omega)).2, ?_, ?_⟩
        · show vec 2 (x + (2 * w + 2 * u * n + n)) l = _
          rw [vec, Ptr.add_add]; apply Ptr.add_congr; ring
        · rw [g2 _ _ hl (by omega)]; fin_cases l <;> rfl
      · refine ⟨_, (hb l.val 0 hl (by omega)).2, ?_, ?_⟩
        · show vec 2 (x + (2 * w + 2 * u * n)) l = _
          rw [vec, Ptr.add_add]; apply Ptr.add_congr; ring
        · rw [g2 _ _ hl (by omega)]; fin_cases l <;> rfl
    · intro t ht
      left
      obtain ⟨e, f, he, hf, rfl | rfl⟩ := blk_cases ht
      · rcases two_cases hf with rfl | rfl
        · refine ⟨1, ⟨e, he⟩, ?_⟩
          show vec 2 (x + (2 * u + 2 * w * n)) _ = _
          rw [vec, Ptr.add_add]; apply Ptr.add_congr; ring
        · refine ⟨0, ⟨e, he⟩, ?_⟩
          show vec 2 (x + (2 * u + 2 * w * n + n)) _ = _
          rw [vec, Ptr.add_add]; apply Ptr.add_congr; ring
      · rcases two_cases hf with rfl | rfl
        · refine ⟨3, ⟨e, he⟩, ?_⟩
          show vec 2 (x + (2 * w + 2 * u * n)) _ = _
          rw [vec, Ptr.add_add]; apply Ptr.add_congr; ring
        · refine ⟨2, ⟨e, he⟩, ?_⟩
          show vec 2 (x + (2 * w + 2 * u * n + n)) _ = _
          rw [vec, Ptr.add_add]; apply Ptr.add_congr; ring
  · rename_i hne
    have huw' : w = u := by omega
    subst huw'
    simp only
    refine tr_bfly_cells (xv := fun i _ => v (![2 * w + 1 + (2 * w + 0) * n,
        2 * w + 0 + (2 * w + 1) * n] i)) (wv := Fin.elim0) ?_ (fun i => i.elim0) ?_
        (fun t ht => blk_alloc hax ht) ?_
    · intro i l
      have hl : l = 0 := Subsingleton.elim _ _
      subst hl
      fin_cases i
      · have e : vec 1 (x + (2 * w + 2 * w * n + 1)) 0 = x + (2 * w + 1 + (2 * w + 0) * n) := by
          rw [vec, Ptr.add_add]; apply Ptr.add_congr; simp; ring
        exact cell_ok hax (hb 1 0 (by omega) (by omega)).2 e
      · have e : vec 1 (x + (2 * w + 2 * w * n + n)) 0 = x + (2 * w + 0 + (2 * w + 1) * n) := by
          rw [vec, Ptr.add_add]; apply Ptr.add_congr; simp; ring
        exact cell_ok hax (hb 0 1 (by omega) (by omega)).2 e
    · intro i l
      have hl : l = 0 := Subsingleton.elim _ _
      subst hl
      fin_cases i
      · refine ⟨_, (hb 0 1 (by omega) (by omega)).1, ?_, ?_⟩
        · show vec 1 (x + (2 * w + 2 * w * n + n)) 0 = _
          rw [vec, Ptr.add_add]; apply Ptr.add_congr; simp; ring
        · rw [g1 _ _ (by omega) (by omega)]; rfl
      · refine ⟨_, (hb 1 0 (by omega) (by omega)).1, ?_, ?_⟩
        · show vec 1 (x + (2 * w + 2 * w * n + 1)) 0 = _
          rw [vec, Ptr.add_add]; apply Ptr.add_congr; simp; ring
        · rw [g1 _ _ (by omega) (by omega)]; rfl
    · intro t ht
      have ht' := ht
      obtain ⟨e, f, he, hf, h1⟩ := blk_cases ht
      have h1 : t = 2 * w + e + (2 * w + f) * n := by rcases h1 with h | h <;> exact h
      subst h1
      rcases two_cases he with rfl | rfl <;> rcases two_cases hf with rfl | rfl
      · right; rw [g1 _ _ he hf]; exact hax _ ht'.1
      · left
        refine ⟨0, 0, ?_⟩
        show vec 1 (x + (2 * w + 2 * w * n + n)) 0 = _
        rw [vec, Ptr.add_add]; apply Ptr.add_congr; simp; ring
      · left
        refine ⟨1, 0, ?_⟩
        show vec 1 (x + (2 * w + 2 * w * n + 1)) 0 = _
        rw [vec, Ptr.add_add]; apply Ptr.add_congr; simp; ring
      · right; rw [g1 _ _ he hf]; exact hax _ ht'.1

/-- content of the twiddle table built by `init_Wnxn` -/
def SixTab (C : Type) [CArith F C] (n : Nat) (h : Heap C) (W : Ptr) : Prop :=
  ∀ u v, u ≤ v → v < n / 2 → ∀ e < 2, ∀ f < 2,
    h (W + (4 * sixIdx (n / 2) u v + 2 * f + e)).loc = some (some (nxnVal C n (2 * v + e) (2 * u + f)))

/-- twiddle used for output `(column c, row r)` -/
def sixTw (C : Type) [CArith F C] (n c r : Nat) : C :=
  if r / 2 < c / 2 then nxnVal C n c r else nxnVal C n r c

/-- twiddle pass as a function on `(column, row)` -/
def sixMultG (inv : Bool) (mode : ScaleMode) (n : Nat) (v : Nat → C) (c r : Nat) : C :=
  mulpz (scalepz (n * n) mode (cj inv (sixTw C n c r))) (v (r + c * n))

theorem tab_ok {S : Set Loc} {i e : Nat} {val : C} (hW : h (W + (i + e)).loc = some (some val))
    (hlt : i + e < len) {p : Ptr} (ep : p = W + (i + e)) :
    h p.loc = some (some val) ∧ p.loc ∈ S ∪ Region W len := by
  subst ep; exact ⟨hW, Or.inr (mem_region hlt)⟩

theorem sixMult_tr {inv : Bool} {mode : ScaleMode} (hn : 2 ∣ n) {u w : Nat} (huw : u ≤ w)
    (hw : w < n / 2) (hax : Arr h x (n * n) v) (hW : SixTab C n h W) :
    Tr (Cells x (Blk n u w) ∪ Region W (4 * sixL n)) (Cells x (Blk n u w))
      (sixMult C inv mode n (sixIdx (n / 2) u w) (2 * u) (2 * w) x W) h ()
      (h.upd (Cells x (Blk n u w)) (onArr x fun t => sixMultG inv mode n v (t % n) (t / n))) := by
  have hb := fun e f he hf => blk_of (n := n) (u := u) (v := w) (e := e) (f := f) hn huw hw he hf
  have hidx := sixIdx_lt huw hw
  have htab := hW u w huw hw
  generalize sixIdx (n / 2) u w = i at hidx htab
  have g1 : ∀ e f, e < 2 → f < 2 → sixMultG inv mode n v ((2 * u + e + (2 * w + f) * n) % n)
      ((2 * u + e + (2 * w + f) * n) / n) =
      mulpz (scalepz (n * n) mode (cj inv (nxnVal C n (2 * w + f) (2 * u + e))))
        (v (2 * w + f + (2 * u + e) * n)) := by
    intro e f he hf
    obtain ⟨e1, e2⟩ := pos_mod (n := n) (c := 2 * u + e) (r := 2 * w + f) (by omega)
    rw [e1, e2, sixMultG, sixTw, if_neg (by omega)]
  have g2 : u ≠ w → ∀ e f, e < 2 → f < 2 → sixMultG inv mode n v ((2 * w + e + (2 * u + f) * n) % n)
      ((2 * w + e + (2 * u + f) * n) / n) =
      mulpz (scalepz (n * n) mode (cj inv (nxnVal C n (2 * w + e) (2 * u + f))))
        (v (2 * u + f + (2 * w + e) * n)) := by
    intro hne e f he hf
    obtain ⟨e1, e2⟩ := pos_mod (n := n) (c := 2 * w + e) (r := 2 * u + f) (by omega)
    rw [e1, e2, sixMultG, sixTw, if_pos (by omega)]
  have htw : ∀ (j : Fin 2) (l : Fin 2),
      h ((![vec 2 (W + (4 * i)), vec 2 (W + (4 * i + 2))] : Fin 2 → Fin 2 → Ptr) j l).loc =
        some (some (nxnVal C n (2 * w + l.val) (2 * u + j.val))) ∧
      ((![vec 2 (W + (4 * i)), vec 2 (W + (4 * i + 2))] : Fin 2 → Fin 2 → Ptr) j l).loc ∈
        Cells x (Blk n u w) ∪ Region W (4 * sixL n) := by
    intro j l
    have hl := l.isLt
    fin_cases j
    · exact tab_ok (htab l.val hl 0 (by omega)) (by omega) (Ptr.add_add _ _ _)
    · exact tab_ok (htab l.val hl 1 (by omega)) (by omega) (Ptr.add_add _ _ _)
  unfold sixMult
  split
  · rename_i hne
    simp only
    refine tr_bfly_cells (xv := fun i l => v (![2 * w + l.val + (2 * u + 0) * n,
        2 * w + l.val + (2 * u + 1) * n, 2 * u + l.val + (2 * w + 0) * n,
        2 * u + l.val + (2 * w + 1) * n] i))
        (wv := fun j l => nxnVal C n (2 * w + l.val) (2 * u + j.val)) ?_ htw ?_
        (fun t ht => blk_alloc hax ht) ?_
    · intro i l
      have hl := l.isLt
      fin_cases i
      · have e : vec 2 (x + (2 * w + 2 * u * n)) l = x + (2 * w + l.val + (2 * u + 0) * n) := by
          rw [vec, Ptr.add_add]; apply Ptr.add_congr; ring
        exact cell_ok hax (hb _ _ hl (by omega)).2 e
      · have e : vec 2 (x + (2 * w + 2 * u * n + n)) l = x + (2 * w + l.val + (2 * u + 1) * n) := by
          rw [vec, Ptr.add_add]; apply Ptr.add_congr; ring
        exact cell_ok hax (hb _ _ hl (by omega)).2 e
      · have e : vec 2 (x + (2 * u + 2 * w * n)) l = x + (2 * u + l.val + (2 * w + 0) * n) := by
          rw [vec, Ptr.add_add]; apply Ptr.add_congr; ring
        exact cell_ok hax (hb _ _ hl (by omega)).1 e
      · have e : vec 2 (x + (2 * u + 2 * w * n + n)) l = x + (2 * u + l.val + (2 * w + 1) * n) := by
          rw [vec, Ptr.add_add]; apply Ptr.add_congr; ring
        exact cell_ok hax (hb _ _ hl (by omega)).1 e
    · intro i l
      have hl := l.isLt
      fin_cases i
      · refine ⟨_, (hb l.val 1 hl (by omega)).1, ?_, ?_⟩
        · show vec 2 (x + (2 * u + 2 * w * n + n)) l = _
          rw [vec, Ptr.add_add]; apply Ptr.add_congr; ring
        · rw [g1 _ _ hl (by omega)]; fin_cases l <;> cases inv <;> cases mode <;> rfl
      · refine ⟨_, (hb l.val 0 hl (by omega)).1, ?_, ?_⟩
        · show vec 2 (x + (2 * u + 2 * w * n)) l = _
          rw [vec, Ptr.add_add]; apply Ptr.add_congr; ring
        · rw [g1 _ _ hl (by omega)]; fin_cases l <;> cases inv <;> cases mode <;> rfl
      · refine ⟨_, (hb l.val 1 hl (by omega)).2, ?_, ?_⟩
        · show vec 2 (x + (2 * w + 2 * u * n + n)) l = _
          rw [vec, Ptr.add_add]; apply Ptr.add_congr; ring
        · rw [g2 (by omega) _ _ hl (by omega)]; fin_cases l <;> cases inv <;> cases mode <;> rfl
      · refine ⟨_, (hb l.val 0 hl (by omega)).2, ?_, ?_⟩
        · show vec 2 (x + (2 * w + 2 * u * n)) l = _
          rw [vec, Ptr.add_add]; apply Ptr.add_congr; ring
        · rw [g2 (by omega) _ _ hl (by omega)]; fin_cases l <;> cases inv <;> cases mode <;> rfl
    · intro t ht
      left
      obtain ⟨e, f, he, hf, rfl | rfl⟩ := blk_cases ht
      · rcases two_cases hf with rfl | rfl
        · refine ⟨1, ⟨e, he⟩, ?_⟩
          show vec 2 (x + (2 * u + 2 * w * n)) _ = _
          rw [vec, Ptr.add_add]; apply Ptr.add_congr; ring
        · refine ⟨0, ⟨e, he⟩, ?_⟩
          show vec 2 (x + (2 * u + 2 * w * n + n)) _ = _
          rw [vec, Ptr.add_add]; apply Ptr.add_congr; ring
      · rcases two_cases hf with rfl | rfl
        · refine ⟨3, ⟨e, he⟩, ?_⟩
          show vec 2 (x + (2 * w + 2 * u * n)) _ = _
          rw [vec, Ptr.add_add]; apply Ptr.add_congr; ring
        · refine ⟨2, ⟨e, he⟩, ?_⟩
          show vec 2 (x + (2 * w + 2 * u * n + n)) _ = _
          rw [vec, Ptr.add_add]; apply Ptr.add_congr; ring
  · rename_i hne
    have huw' : w = u := by omega
    subst huw'
    simp only
    refine tr_bfly_cells (xv := fun i l => v (![2 * w + l.val + (2 * w + 0) * n,
        2 * w + l.val + (2 * w + 1) * n] i))
        (wv := fun j l => nxnVal C n (2 * w + l.val) (2 * w + j.val)) ?_ htw ?_
        (fun t ht => blk_alloc hax ht) ?_
    · intro i l
      have hl := l.isLt
      fin_cases i
      · have e : vec 2 (x + (2 * w + 2 * w * n)) l = x + (2 * w + l.val + (2 * w + 0) * n) := by
          rw [vec, Ptr.add_add]; apply Ptr.add_congr; ring
        exact cell_ok hax (hb _ _ hl (by omega)).2 e
      · have e : vec 2 (x + (2 * w + 2 * w * n + n)) l = x + (2 * w + l.val + (2 * w + 1) * n) := by
          rw [vec, Ptr.add_add]; apply Ptr.add_congr; ring
        exact cell_ok hax (hb _ _ hl (by omega)).2 e
    · intro i l
      have hl := l.isLt
      fin_cases i
      · refine ⟨_, (hb l.val 1 hl (by omega)).1, ?_, ?_⟩
        · show vec 2 (x + (2 * w + 2 * w * n + n)) l = _
          rw [vec, Ptr.add_add]; apply Ptr.add_congr; ring
        · rw [g1 _ _ hl (by omega)]; fin_cases l <;> cases inv <;> cases mode <;> rfl
      · refine ⟨_, (hb l.val 0 hl (by omega)).1, ?_, ?_⟩
        · show vec 2 (x + (2 * w + 2 * w * n)) l = _
          rw [vec, Ptr.add_add]; apply Ptr.add_congr; ring
        · rw [g1 _ _ hl (by omega)]; fin_cases l <;> cases inv <;> cases mode <;> rfl
    · intro t ht
      left
      obtain ⟨e, f, he, hf, h1⟩ := blk_cases ht
      have h1 : t = 2 * w + e + (2 * w + f) * n := by rcases h1 with h | h <;> exact h
      subst h1
      rcases two_cases hf with rfl | rfl
      · refine ⟨1, ⟨e, he⟩, ?_⟩
        show vec 2 (x + (2 * w + 2 * w * n)) _ = _
        rw [vec, Ptr.add_add]; apply Ptr.add_congr; ring
      · refine ⟨0, ⟨e, he⟩, ?_⟩
        show vec 2 (x + (2 * w + 2 * w * n + n)) _ = _
        rw [vec, Ptr.add_add]; apply Ptr.add_congr; ring

/-- A loop whose iterations work on disjoint pieces of memory. -/
theorem phase_blocks (k : Nat) {task : Nat → Task C} (Rs Ds : Nat → Set Loc) (hf : Nat → Heap C)
    (htr : ∀ i < k, Tr (Rs i) (Ds i) (task i) h () (hf i))
    (hdis : ∀ i < k, ∀ j < k, i ≠ j → ∀ l ∈ Ds i, l ∉ Rs j ∪ Ds j)
    (hR : ∀ i < k, Rs i ⊆ R) (hD : ∀ i < k, Ds i ⊆ D) :
    ∃ h', PhaseGood R D (tasks1 k task) h h' ∧ (∀ i < k, ∀ l ∈ Ds i, h' l = hf i l) ∧
      ∀ l, (∀ i < k, l ∉ Ds i) → h' l = h l := by
  classical
  let h' : Heap C := fun l => if hl : ∃ i, i < k ∧ l ∈ Ds i then hf hl.choose l else h l
  have e1 : ∀ i < k, ∀ l ∈ Ds i, h' l = hf i l := by
    intro i hi l hl
    have hex : ∃ i, i < k ∧ l ∈ Ds i := ⟨i, hi, hl⟩
    have : hex.choose = i := by
      by_contra hne
      exact hdis _ hex.choose_spec.1 i hi hne l hex.choose_spec.2 (Or.inr hl)
    show (if hl : ∃ i, i < k ∧ l ∈ Ds i then hf hl.choose l else h l) = _
    rw [dif_pos hex, this]
  have e2 : ∀ l, (∀ i < k, l ∉ Ds i) → h' l = h l := by
    intro l hl
    show (if hl : ∃ i, i < k ∧ l ∈ Ds i then hf hl.choose l else h l) = _
    rw [dif_neg]
    rintro ⟨i, hi, hm⟩; exact hl i hi hm
  have hlen : (tasks1 k task).length = k := by simp [tasks1]
  refine ⟨h', ⟨Rs, Ds, hf, ?_, ?_, ?_, ?_, ?_⟩, e1, e2⟩
  · intro i p hp
    have hi : i < k := by
      by_contra hc
      rw [List.getElem?_eq_none (by rw [hlen]; omega)] at hp
      simp at hp
    rw [List.getElem?_eq_getElem (by rw [hlen]; exact hi)] at hp
    simp only [tasks1, List.getElem_map, List.getElem_range, Option.some.injEq] at hp
    subst hp; exact htr i hi
  · intro i j hij hi hj
    rw [hlen] at hi hj
    exact hdis i hi j hj hij
  · intro i hi; rw [hlen] at hi; exact ⟨hR i hi, hD i hi⟩
  · intro i hi; rw [hlen] at hi; exact e1 i hi
  · intro l hl; rw [hlen] at hl; exact e2 l hl

end

end OTFFT
