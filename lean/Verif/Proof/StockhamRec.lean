/-
Layer 1 for the recursive Stockham transforms.
-/
import Verif.Proof.StockhamMem
import Mathlib.Tactic.Linarith
import Mathlib.Tactic.IntervalCases

noncomputable section

namespace OTFFT

set_option linter.unusedSectionVars false

variable {F C : Type} [DArith F] [CArith F C]

/-- the last stage as a butterfly: scale, then butterfly -/
def endG {r : Nat} (B : BF r) (N : Nat) (mode : ScaleMode) : Nat → (Fin r → C) → Fin r → C :=
  fun _ xs => B.fn fun j => scalepz N mode (xs j)

/-- the last stage as a function on arrays -/
def endPure (inv : Bool) (mode : ScaleMode) (n s : Nat) (v : Nat → C) : Nat → C :=
  if n = 16 then difPure 16 1 s (endG (bf16 inv) (16 * s) mode) v
  else if n = 8 then difPure 8 1 s (endG (bf8 inv) (8 * s) mode) v
  else if n = 4 then difPure 4 1 s (endG (bf4 inv) (4 * s) mode) v
  else difPure 2 1 s (endG bf2 (2 * s) mode) v

/-- the DIF transform as a function on arrays -/
def difRec (r : Nat) [NeZero r] (B : BF r) (inv : Bool) (T : Nat → Fin (r-1) → C)
    (mode : ScaleMode) (n s : Nat) (v : Nat → C) : Nat → C :=
  if _h : n ≤ r ∨ r < 2 then endPure inv mode n s v
  else difRec r B inv T mode (n / r) (r * s) (difPure r (n / r) s (difG B T s) v)
termination_by n
decreasing_by exact Nat.div_lt_self (by omega) (by omega)

/-- the DIT transform as a function on arrays -/
def ditRec (r : Nat) [NeZero r] (B : BF r) (inv : Bool) (T : Nat → Fin (r-1) → C)
    (mode : ScaleMode) (n s : Nat) (v : Nat → C) : Nat → C :=
  if _h : n ≤ r ∨ r < 2 then endPure inv mode n s v
  else ditPure r (n / r) s (ditG B T s) (ditRec r B inv T mode (n / r) (r * s) v)
termination_by n
decreasing_by exact Nat.div_lt_self (by omega) (by omega)

theorem tasks2_one (k : Nat) (f : Nat → Nat → Task C) : tasks2 1 k f = tasks1 k (f 0) := by
  simp [tasks2, tasks1]

section
variable {R D : Set Loc} {h : Heap C} {x y W : Ptr} {v : Nat → C} {inv : Bool} {mode : ScaleMode}

theorem endKern_good {r : Nat} [NeZero r] {B : BF r} (hB : LaneWise B) {kind : LoopKind} {s N : Nat}
    (hN : N = r * s) (hs : s = 1 ∨ 2 ∣ s)
    (hax : Arr h x N v) (hay : Alloc h y N) (hxy : Sep x N y N ∨ x = y)
    (hRx : Region x N ⊆ R) (hDy : Region y N ⊆ D) :
    ∃ h', Good R D (Items.region (endKern r B C kind mode s x y)) h h' ∧
      Arr h' y N (difPure r 1 s (endG B N mode) v) ∧ ∀ l, l ∉ Region y N → h' l = h l := by
  have hN' : N = s * (r * 1) := by rw [hN]; ring
  have hxy' : Sep x N y N ∨ (x = y ∧ 1 = 1) := by
    rcases hxy with h | h
    · exact Or.inl h
    · exact Or.inr ⟨h, rfl⟩
  unfold endKern
  simp only [← hN]
  split
  · rename_i hs1
    subst hs1
    rw [Items.region_loop]
    have e : [bfly (fun j : Fin r => vec 1 (x + j.val)) Fin.elim0 (fun k : Fin r => vec 1 (y + k.val))
        (fun X (_ : Fin 0 → Fin 1 → C) => B.fn (V := Fin 1 → C) fun j => scalepz N mode (X j))] =
        tasks2 1 (cnt 1 1) (fun _ _ => bfly (fun j : Fin r => vec 1 (x + j.val)) Fin.elim0
          (fun k : Fin r => vec 1 (y + k.val))
        (fun X (_ : Fin 0 → Fin 1 → C) => B.fn (V := Fin 1 → C) fun j => scalepz N mode (X j))) := by
      rw [tasks2_one]; rfl
    rw [e]
    apply difA _ (endG B N mode) (L := 1) (b := 0) (fun _ _ k _ => k.elim0) hN' (by omega) (by simp)
      hax hay hxy'
    · intro p hp i hi j l
      rw [vec, Ptr.add_add]; apply Ptr.add_congr
      have : p = 0 := by omega
      have : i = 0 := by simpa using hi
      have := l.isLt
      subst_vars; simp
    · intro p hp i hi j l
      rw [vec, Ptr.add_add]; apply Ptr.add_congr
      have : p = 0 := by omega
      have : i = 0 := by simpa using hi
      have := l.isLt
      subst_vars; simp
    · intro p hp i hi k; exact k.elim0
    · intro p hp i hi xs k l
      rw [hB]; unfold endG; congr 1
      funext j; exact scalepz_lane _ _ _ _
    · exact hRx
    · exact hDy
  · rename_i hs1
    have hs2 : 2 ∣ s := by rcases hs with h | h; exact absurd h hs1; exact h
    rw [Items.region_loop, ← tasks2_one (cnt s 2) (fun _ i => bfly
        (fun j : Fin r => vec 2 (x + (2 * i + s * j.val))) Fin.elim0
        (fun k : Fin r => vec 2 (y + (2 * i + s * k.val)))
        (fun X (_ : Fin 0 → Fin 2 → C) => B.fn (V := Fin 2 → C) fun j => scalepz N mode (X j)))]
    apply difA _ (endG B N mode) (L := 2) (b := 0) (fun _ _ k _ => k.elim0) hN' (by omega) hs2
      hax hay hxy'
    · intro p hp i hi j l
      rw [vec, Ptr.add_add]; apply Ptr.add_congr
      have : p = 0 := by omega
      subst this; ring
    · intro p hp i hi j l
      rw [vec, Ptr.add_add]; apply Ptr.add_congr
      have : p = 0 := by omega
      subst this; ring
    · intro p hp i hi k; exact k.elim0
    · intro p hp i hi xs k l
      rw [hB]; unfold endG; congr 1
      funext j; exact scalepz_lane _ _ _ _
    · exact hRx
    · exact hDy

theorem endAny_good {kind : LoopKind} {n s N : Nat}
    (hn : n = 2 ∨ n = 4 ∨ n = 8 ∨ n = 16) (hN : N = n * s) (hs : s = 1 ∨ 2 ∣ s)
    (hax : Arr h x N v) (hay : Alloc h y N) (hxy : Sep x N y N ∨ x = y)
    (hRx : Region x N ⊆ R) (hDy : Region y N ⊆ D) :
    ∃ h', Good R D (Items.region (endAny C inv kind mode n s x y)) h h' ∧
      Arr h' y N (endPure inv mode n s v) ∧ ∀ l, l ∉ Region y N → h' l = h l := by
  unfold endAny endPure
  rcases hn with rfl | rfl | rfl | rfl
  · simpa [hN] using endKern_good lane_bf2 hN hs hax hay hxy hRx hDy
  · simpa [hN] using endKern_good (lane_bf4 inv) hN hs hax hay hxy hRx hDy
  · simpa [hN] using endKern_good (lane_bf8 inv) hN hs hax hay hxy hRx hDy
  · simpa [hN] using endKern_good (lane_bf16 inv) hN hs hax hay hxy hRx hDy

theorem endKern_barriered {r : Nat} [NeZero r] {B : BF r} {kind : LoopKind} (hk : kind ≠ .ompNowait)
    (s : Nat) : Items.Barriered (endKern r B C kind mode s x y) := by
  unfold endKern
  simp only
  split
  · exact Items.barriered_loop (by decide) _
  · exact Items.barriered_loop hk _

theorem endAny_barriered {kind : LoopKind} (hk : kind ≠ .ompNowait) (n s : Nat) :
    Items.Barriered (endAny C inv kind mode n s x y) := by
  unfold endAny
  split
  · exact endKern_barriered hk s
  split
  · exact endKern_barriered hk s
  split
  · exact endKern_barriered hk s
  split
  · exact endKern_barriered hk s
  · intro i hi; simp at hi; rw [hi]

variable {r : Nat} [NeZero r] {B : BF r} {T : Nat → Fin (r-1) → C} {path : Path} {L : Nat}

theorem difCore_barriered (n s : Nat) : Items.Barriered
    (if s = 1 then difCore1 r B inv x y W C path n else difCoreS r B inv x y W C path L n s) := by
  split
  · cases path
    · exact Items.barriered_loop (k := .serial) (by decide) _
    · exact Items.barriered_loop (k := .omp) (by decide) _
  · cases path
    · exact Items.barriered_loop (k := .serial) (by decide) _
    · exact Items.barriered_loop (k := .omp) (by decide) _

theorem ditCoreS_barriered (n s : Nat) :
    Items.Barriered (ditCoreS r B inv x y W C path L n s) := by
  cases path
  · exact Items.barriered_loop (k := .serial) (by decide) _
  · exact Items.barriered_loop (k := .omp) (by decide) _

theorem ditFFT_barriered (n : Nat) : ∀ (s : Nat) (eo : Bool) (x y : Ptr), 2 ≤ s →
    Items.Barriered (ditFFT C r B L inv path mode n s eo x y W) := by
  induction n using Nat.strong_induction_on with
  | _ n ih =>
    intro s eo x y hs
    rw [ditFFT.eq_def]
    split
    · apply endAny_barriered
      cases path <;> decide
    · rename_i hc
      push Not at hc
      refine (ih (n / r) (Nat.div_lt_self (by omega) (by omega)) _ _ _ _ ?_).append ?_
      · nlinarith
      · rw [if_neg (by omega)]
        exact ditCoreS_barriered n s

/-- side conditions of the recursion: radix 4, 8 or 16, length a power of two, stride 1 or a
multiple of 4 -/
structure Shape (r L k n s N : Nat) : Prop where
  hr : r = 4 ∨ r = 8 ∨ r = 16
  hL : L = 4 ∨ L = 2
  hk : 1 ≤ k
  hn : n = 2 ^ k
  hs : s = 1 ∨ 4 ∣ s
  hpos : 1 ≤ s
  hN : N = n * s

theorem pow_le_16 {k : Nat} (hk : 1 ≤ k) (h : 2 ^ k ≤ 16) :
    2 ^ k = 2 ∨ 2 ^ k = 4 ∨ 2 ^ k = 8 ∨ 2 ^ k = 16 := by
  have : k ≤ 4 := by
    by_contra hc
    have : 2 ^ 5 ≤ 2 ^ k := Nat.pow_le_pow_right (by omega) (by omega)
    omega
  interval_cases k <;> simp

theorem Shape.ends {k n s N : Nat} (sh : Shape r L k n s N) (h : n ≤ r) :
    n = 2 ∨ n = 4 ∨ n = 8 ∨ n = 16 := by
  have := pow_le_16 sh.hk (by rw [← sh.hn]; rcases sh.hr with h | h | h <;> omega)
  rw [sh.hn]; exact this

theorem Shape.step {k n s N : Nat} (sh : Shape r L k n s N) (h : r < n) :
    ∃ k', Shape r L k' (n / r) (r * s) N ∧ n = r * (n / r) ∧ 2 ∣ n / r := by
  obtain ⟨e, he, he1⟩ : ∃ e, r = 2 ^ e ∧ 2 ≤ e := by
    rcases sh.hr with h | h | h
    · exact ⟨2, by omega, by omega⟩
    · exact ⟨3, by omega, by omega⟩
    · exact ⟨4, by omega, by omega⟩
  have hlt : e < k := by
    have := sh.hn
    rw [this, he] at h
    exact (Nat.pow_lt_pow_iff_right (by omega)).1 h
  have hd : n / r = 2 ^ (k - e) := by
    rw [sh.hn, he, Nat.pow_div (by omega) (by omega)]
  have hm : n = r * (n / r) := by
    rw [hd, sh.hn, he, ← pow_add]; congr 1; omega
  refine ⟨k - e, ⟨sh.hr, sh.hL, by omega, hd, Or.inr ?_, ?_, ?_⟩, hm, ?_⟩
  · rcases sh.hr with h | h | h <;> rw [h] <;> omega
  · exact Nat.mul_pos (Nat.pos_of_ne_zero (NeZero.ne r)) sh.hpos
  · rw [sh.hN]; conv_lhs => rw [hm]
    ring
  · rw [hd]; exact dvd_pow_self 2 (by omega)

theorem difFFT_good (hB : LaneWise B) : ∀ (n k s N : Nat) (eo : Bool) (x y : Ptr) (v : Nat → C)
    (h : Heap C), Shape r L k n s N → Arr h x N v → Alloc h y N → Sep x N y N →
    (r < n → TwOK path r N inv h W T) → W.buf ≠ x.buf → W.buf ≠ y.buf →
    Region x N ⊆ R → Region y N ⊆ R → (r < n → Region W (tabLen path r N) ⊆ R) →
    Region x N ⊆ D → Region y N ⊆ D →
    ∃ h', Good R D (Items.region (difFFT C r B L inv path mode n s eo x y W)) h h' ∧
      Arr h' (if eo then y else x) N (difRec r B inv T mode n s v) ∧
      ∀ l, l ∉ Region x N → l ∉ Region y N → h' l = h l := by
  intro n
  induction n using Nat.strong_induction_on with
  | _ n ih =>
  intro k s N eo x y v h sh hax hay hxy htw hWx hWy hRx hRy hRW hDx hDy
  have hr4 : 4 ≤ r := by rcases sh.hr with h | h | h <;> omega
  have hr2 : 2 ∣ r := by rcases sh.hr with h | h | h <;> rw [h] <;> decide
  rw [difFFT.eq_def, difRec.eq_def]
  by_cases hc : n ≤ r ∨ r < 2
  · have hle : n ≤ r := by omega
    rw [dif_pos hc, dif_pos hc]
    have hs2 : s = 1 ∨ 2 ∣ s := by
      rcases sh.hs with h | h
      · exact Or.inl h
      · exact Or.inr (Dvd.dvd.trans (by decide) h)
    obtain ⟨h', g, a, f⟩ := endAny_good (kind := difEndKind path) (R := R) (D := D) (h := h) (x := x)
      (y := if eo then y else x) (inv := inv) (mode := mode)
      (sh.ends hle) sh.hN hs2 hax
      (by cases eo
          · exact hax.alloc
          · exact hay)
      (by cases eo
          · exact Or.inr rfl
          · exact Or.inl hxy) hRx (by cases eo <;> assumption)
    refine ⟨h', g, a, fun l h1 h2 => f l ?_⟩
    cases eo <;> assumption
  · rw [dif_neg hc, dif_neg hc]
    have hlt : r < n := by omega
    obtain ⟨k', sh', hm, hm2⟩ := sh.step hlt
    rw [Items.region_append (difCore_barriered n s)]
    obtain ⟨h1, g1, a1, f1⟩ : ∃ h', Good R D (Items.region
        (if s = 1 then difCore1 r B inv x y W C path n
          else difCoreS r B inv x y W C path L n s)) h h' ∧
        Arr h' y N (difPure r (n / r) s (difG B T s) v) ∧ ∀ l, l ∉ Region y N → h' l = h l := by
      by_cases hs1 : s = 1
      · rw [if_pos hs1]
        subst hs1
        have hN : N = n := by rw [sh.hN, Nat.mul_one]
        subst hN
        exact difCore1_good hB hr2 hm hm2 hax hay hxy (htw hlt) hWy hRx (hRW hlt) hDy
      · rw [if_neg hs1]
        have h4 : 4 ∣ s := by rcases sh.hs with h | h; exact absurd h hs1; exact h
        exact difCoreS_good hB hm sh.hN (by rcases sh.hL with h | h <;> omega)
          (by rcases sh.hL with h | h <;> rw [h]; exact h4; exact Dvd.dvd.trans (by decide) h4)
          h4 hax hay hxy (htw hlt) hWy hRx (hRW hlt) hDy
    have hW1 : ∀ i : Nat, h1 (W + i).loc = h (W + i).loc := by
      intro i
      apply f1
      rw [mem_region']; rintro ⟨e, _⟩; exact hWy e
    obtain ⟨h2, g2, a2, f2⟩ := ih (n / r) (Nat.div_lt_self (by omega) (by omega)) k' (r * s) N (!eo)
      y x _ h1 sh' a1 (hax.alloc.of_eq g1.alloc) hxy.symm (fun _ => (htw hlt).frame hW1)
      hWy hWx hRy hRx (fun _ => hRW hlt) hDy hDx
    refine ⟨h2, g1.append g2, ?_, ?_⟩
    · cases eo <;> exact a2
    · intro l hl1 hl2
      rw [f2 l hl2 hl1, f1 l hl2]

theorem ditFFT_good (hB : LaneWise B) : ∀ (n k s N : Nat) (eo : Bool) (x y : Ptr) (v : Nat → C)
    (h : Heap C), Shape r L k n s N → Arr h (if eo then y else x) N v →
    Alloc h (if eo then x else y) N → Sep x N y N →
    (r < n → TwOK path r N inv h W T) → W.buf ≠ x.buf → W.buf ≠ y.buf →
    Region x N ⊆ R → Region y N ⊆ R → (r < n → Region W (tabLen path r N) ⊆ R) →
    Region x N ⊆ D → Region y N ⊆ D →
    ∃ h', Good R D (Items.region (ditFFT C r B L inv path mode n s eo x y W)) h h' ∧
      Arr h' x N (ditRec r B inv T mode n s v) ∧
      ∀ l, l ∉ Region x N → l ∉ Region y N → h' l = h l := by
  intro n
  induction n using Nat.strong_induction_on with
  | _ n ih =>
  intro k s N eo x y v h sh haz hal hxy htw hWx hWy hRx hRy hRW hDx hDy
  have hr4 : 4 ≤ r := by rcases sh.hr with h | h | h <;> omega
  have hr2 : 2 ∣ r := by rcases sh.hr with h | h | h <;> rw [h] <;> decide
  have hax : Alloc h x N := by cases eo; exact haz.alloc; exact hal
  have hay : Alloc h y N := by cases eo; exact hal; exact haz.alloc
  rw [ditFFT.eq_def, ditRec.eq_def]
  by_cases hc : n ≤ r ∨ r < 2
  · have hle : n ≤ r := by omega
    rw [dif_pos hc, dif_pos hc]
    have hs2 : s = 1 ∨ 2 ∣ s := by
      rcases sh.hs with h | h
      · exact Or.inl h
      · exact Or.inr (Dvd.dvd.trans (by decide) h)
    obtain ⟨h', g, a, f⟩ := endAny_good (kind := ditEndKind path) (R := R) (D := D) (h := h) (x := if eo then y else x)
      (y := x) (inv := inv) (mode := mode)
      (sh.ends hle) sh.hN hs2 haz hax
      (by cases eo
          · exact Or.inr rfl
          · exact Or.inl hxy.symm) (by cases eo <;> assumption) hDx
    exact ⟨h', g, a, fun l h1 h2 => f l h1⟩
  · rw [dif_neg hc, dif_neg hc]
    have hlt : r < n := by omega
    obtain ⟨k', sh', hm, hm2⟩ := sh.step hlt
    have hs1 : 1 ≤ s := sh.hpos
    rw [Items.region_append (ditFFT_barriered _ _ _ _ _ (by nlinarith))]
    obtain ⟨h1, g1, a1, f1⟩ := ih (n / r) (Nat.div_lt_self (by omega) (by omega)) k' (r * s) N (!eo)
      y x v h sh' (by cases eo <;> exact haz) (by cases eo <;> exact hal) hxy.symm
      (fun _ => htw hlt)
      hWy hWx hRy hRx (fun _ => hRW hlt) hDy hDx
    have hW1 : ∀ i : Nat, h1 (W + i).loc = h (W + i).loc := by
      intro i
      apply f1
      · rw [mem_region']; rintro ⟨e, _⟩; exact hWy e
      · rw [mem_region']; rintro ⟨e, _⟩; exact hWx e
    obtain ⟨h2, g2, a2, f2⟩ : ∃ h', Good R D (Items.region
        (if s = 1 then ditCore1 r B inv x y W C path n
          else ditCoreS r B inv x y W C path L n s)) h1 h' ∧
        Arr h' x N (ditPure r (n / r) s (ditG B T s) (ditRec r B inv T mode (n / r) (r * s) v)) ∧
        ∀ l, l ∉ Region x N → h' l = h1 l := by
      by_cases hs1 : s = 1
      · rw [if_pos hs1]
        subst hs1
        have hN : N = n := by rw [sh.hN, Nat.mul_one]
        subst hN
        exact ditCore1_good hB hr2 hm hm2 a1 (hax.of_eq g1.alloc) hxy ((htw hlt).frame hW1) hWx hRy
          (hRW hlt) hDx
      · rw [if_neg hs1]
        have h4 : 4 ∣ s := by rcases sh.hs with h | h; exact absurd h hs1; exact h
        exact ditCoreS_good hB hm sh.hN (by rcases sh.hL with h | h <;> omega)
          (by rcases sh.hL with h | h <;> rw [h]; exact h4; exact Dvd.dvd.trans (by decide) h4)
          h4 a1 (hax.of_eq g1.alloc) hxy ((htw hlt).frame hW1) hWx hRy (hRW hlt) hDx
    refine ⟨h2, g1.append g2, a2, ?_⟩
    intro l hl1 hl2
    rw [f2 l hl1, f1 l hl2 hl1]

end
end OTFFT
