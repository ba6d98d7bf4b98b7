/-
Layer 1 for the Stockham kernels: memory behaviour and functional effect, any arithmetic.
-/
import Verif.Proof.Lanes
import Verif.Proof.Region
import Verif.Proof.Stage

namespace OTFFT

set_option linter.unusedSectionVars false

variable {F C : Type} [DArith F] [CArith F C]

/-- The weight table holds what the cores of radix `r` load, and the twiddles they compute from it
are `T p k` (for twiddle number `k+1` at table position `p`). -/
def TwOK (path : Path) (r N : Nat) (inv : Bool) (h : Heap C) (W : Ptr)
    (T : Nat → Fin (r-1) → C) : Prop :=
  match path with
  | .serial => ∃ c : Nat → Fin (r-1) → C, ∀ p < N / r, ∀ k : Fin (r-1), T p k = cj inv (c p k) ∧
      h (W + (r * p + N + (k.val+1))).loc = some (some (c p k)) ∧
      h (W + (p + k.val * (N/r))).loc = some (some (c p k))
  | .omp => ∃ c : Nat → C, ∀ p < N / r, (∀ k : Fin (r-1), T p k = wpow (cj inv (c p)) (k.val+1)) ∧
      h (W + p).loc = some (some (c p))

/-- number of entries of the weight table (`setup2` of the six algorithm classes,
e.g. src/otfft_algo_dif4.cpp: `2*N` or `N/4`) -/
def tabLen (path : Path) (r N : Nat) : Nat :=
  match path with
  | .serial => 2 * N
  | .omp => N / r

theorem TwOK.frame {path : Path} {r N : Nat} {inv : Bool} {h h' : Heap C} {W : Ptr} {T}
    (t : TwOK path r N inv h W T) (e : ∀ i : Nat, h' (W + i).loc = h (W + i).loc) :
    TwOK path r N inv h' W T := by
  cases path with
  | serial =>
    obtain ⟨c, hc⟩ := t
    refine ⟨c, fun p hp k => ?_⟩
    obtain ⟨h1, h2, h3⟩ := hc p hp k
    exact ⟨h1, by rw [e, h2], by rw [e, h3]⟩
  | omp =>
    obtain ⟨c, hc⟩ := t
    refine ⟨c, fun p hp => ?_⟩
    obtain ⟨h1, h2⟩ := hc p hp
    exact ⟨h1, by rw [e, h2]⟩

theorem tw_idx1 {r N p k : Nat} (hp : p < N / r) (hk : k < r - 1) : r * p + N + (k+1) < 2 * N := by
  have h1 : r * (p + 1) ≤ r * (N / r) := Nat.mul_le_mul_left _ hp
  have h2 := Nat.mul_div_le N r
  rw [Nat.mul_add] at h1
  omega

theorem tw_idx2 {r N p k : Nat} (hp : p < N / r) (hk : k < r - 1) : p + k * (N/r) < 2 * N := by
  have h2 := Nat.div_mul_le_self N r
  have h1 : (k + 1) * (N / r) ≤ r * (N / r) := Nat.mul_le_mul_right _ (by omega)
  rw [Nat.add_mul, Nat.mul_comm r] at h1
  omega

section cores
variable {R D : Set Loc} {h : Heap C} {x y W : Ptr} {v : Nat → C} {r : Nat} [NeZero r] {B : BF r}
  {inv : Bool} {T : Nat → Fin (r-1) → C} {path : Path} {n m s N L : Nat}

/-- the DIF butterfly at position `p` of a stage with stride `s` -/
def difG (B : BF r) (T : Nat → Fin (r-1) → C) (s : Nat) : Nat → (Fin r → C) → Fin r → C :=
  fun p xs => difOut B xs (T (s * p))
/-- the DIT butterfly at position `p` of a stage with stride `s` -/
def ditG (B : BF r) (T : Nat → Fin (r-1) → C) (s : Nat) : Nat → (Fin r → C) → Fin r → C :=
  fun p xs => ditOut B xs (T (s * p))

private theorem flatOmp (m s : Nat) (h4 : 4 ∣ s) (N1 : Nat) (e : N1 = m * s)
    (f : Nat → Nat → Task C) :
    tasks1 (N1 / 4) (fun i => f (i / (s/4)) (i % (s/4))) = tasks2 m (cnt s 4) f := by
  obtain ⟨c, rfl⟩ := h4
  rw [cnt_of_dvd (by omega) ⟨c, rfl⟩, Nat.mul_div_cancel_left _ (by omega : 0 < 4), ← flat_eq_tasks2]
  have : N1 / 4 = m * c := by
    rw [e, show m * (4 * c) = 4 * (m * c) by ring, Nat.mul_div_cancel_left _ (by omega : 0 < 4)]
  rw [this]

theorem difCoreS_good (hB : LaneWise B) (hn : n = r * m) (hN : N = n * s) (hL : 0 < L) (hLs : L ∣ s)
    (h4 : 4 ∣ s)
    (hax : Arr h x N v) (hay : Alloc h y N) (hxy : Sep x N y N)
    (htw : TwOK path r N inv h W T) (hWy : W.buf ≠ y.buf)
    (hRx : Region x N ⊆ R) (hRW : Region W (tabLen path r N) ⊆ R) (hDy : Region y N ⊆ D) :
    ∃ h', Good R D (Items.region (difCoreS r B inv x y W C path L n s)) h h' ∧
      Arr h' y N (difPure r m s (difG B T s) v) ∧ ∀ l, l ∉ Region y N → h' l = h l := by
  have hr : 0 < r := Nat.pos_of_ne_zero (NeZero.ne r)
  have hN' : N = s * (r * m) := by rw [hN, hn]; ring
  have hN1 : N / r = m * s := by
    rw [hN', show s * (r * m) = r * (m * s) by ring, Nat.mul_div_cancel_left _ hr]
  have hnr : n / r = m := by rw [hn, Nat.mul_div_cancel_left _ hr]
  have hsp : ∀ {p q}, p < m → q < s → s * p < N / r := by
    intro p q hp hq
    rw [hN1]
    calc s * p < s * m := Nat.mul_lt_mul_of_pos_left hp (by omega)
      _ = m * s := Nat.mul_comm _ _
  have hs0 : ∀ {i : Nat}, i < s / L → 0 < s := by
    intro i hi
    rcases Nat.eq_zero_or_pos s with h0 | h0
    · rw [h0] at hi; simp at hi
    · exact h0
  cases path with
  | serial =>
    obtain ⟨c, hc⟩ := htw
    unfold difCoreS
    simp only [Items.region_loop, ← hN, hnr]
    apply difA _ (difG B T s) (L := L) (fun p _ k _ => c (s * p) k) hN' hL hLs hax hay (Or.inl hxy)
    · intro p _ i _ j l
      rw [vec, Ptr.add_add]; apply Ptr.add_congr; rw [hN1]; ring
    · intro p _ i _ k l
      rw [vec, Ptr.add_add]; apply Ptr.add_congr; ring
    · intro p hp i hi k l
      have hlt := hsp hp (hs0 hi)
      refine ⟨?_, ?_, ?_⟩
      · exact (hc (s * p) hlt k).2.1
      · exact hRW (mem_region (tw_idx1 hlt k.isLt))
      · rw [mem_region']; rintro ⟨h1, _⟩; exact hWy h1
    · intro p hp i hi xs k l
      have hlt := hsp hp (hs0 hi)
      rw [difOut_lane hB]
      unfold difG
      congr 1
      funext k'
      rw [(hc (s * p) hlt k').1]
      exact cj_lane _ _ _
    · exact hRx
    · exact hDy
  | omp =>
    obtain ⟨c, hc⟩ := htw
    unfold difCoreS
    simp only [Items.region_loop, ← hN]
    rw [flatOmp m s h4 (N / r) hN1 (fun p i => bfly
        (fun j : Fin r => vec 4 (x + (i * 4 + s * p + N / r * j.val)))
        (fun _ : Fin 1 => dup 4 (W + s * p))
        (fun k : Fin r => vec 4 (y + (i * 4 + r * (s * p) + s * k.val)))
        (fun X T => difOut (V := Fin 4 → C) B X (twOmp inv T)))]
    have hs0 : ∀ {i : Nat}, i < s / 4 → 0 < s := by
      intro i hi
      rcases Nat.eq_zero_or_pos s with h0 | h0
      · rw [h0] at hi; simp at hi
      · exact h0
    apply difA _ (difG B T s) (L := 4) (fun p _ _ _ => c (s * p)) hN' (by omega) h4 hax hay
      (Or.inl hxy)
    · intro p _ i _ j l
      rw [vec, Ptr.add_add]; apply Ptr.add_congr; rw [hN1]; ring
    · intro p _ i _ k l
      rw [vec, Ptr.add_add]; apply Ptr.add_congr; ring
    · intro p hp i hi k l
      have hlt := hsp hp (hs0 hi)
      refine ⟨?_, ?_, ?_⟩
      · exact (hc (s * p) hlt).2
      · exact hRW (mem_region hlt)
      · rw [mem_region']; rintro ⟨h1, _⟩; exact hWy h1
    · intro p hp i hi xs k l
      have hlt := hsp hp (hs0 hi)
      rw [difOut_lane hB]
      unfold difG
      congr 1
      funext k'
      rw [(hc (s * p) hlt).1]
      unfold twOmp
      rw [wpow_lane, cj_lane]
    · exact hRx
    · exact hDy

theorem ditCoreS_good (hB : LaneWise B) (hn : n = r * m) (hN : N = n * s) (hL : 0 < L) (hLs : L ∣ s)
    (h4 : 4 ∣ s)
    (hay : Arr h y N v) (hax : Alloc h x N) (hxy : Sep x N y N)
    (htw : TwOK path r N inv h W T) (hWx : W.buf ≠ x.buf)
    (hRy : Region y N ⊆ R) (hRW : Region W (tabLen path r N) ⊆ R) (hDx : Region x N ⊆ D) :
    ∃ h', Good R D (Items.region (ditCoreS r B inv x y W C path L n s)) h h' ∧
      Arr h' x N (ditPure r m s (ditG B T s) v) ∧ ∀ l, l ∉ Region x N → h' l = h l := by
  have hr : 0 < r := Nat.pos_of_ne_zero (NeZero.ne r)
  have hN' : N = s * (r * m) := by rw [hN, hn]; ring
  have hN1 : N / r = m * s := by
    rw [hN', show s * (r * m) = r * (m * s) by ring, Nat.mul_div_cancel_left _ hr]
  have hnr : n / r = m := by rw [hn, Nat.mul_div_cancel_left _ hr]
  have hsp : ∀ {p q}, p < m → q < s → s * p < N / r := by
    intro p q hp hq
    rw [hN1]
    calc s * p < s * m := Nat.mul_lt_mul_of_pos_left hp (by omega)
      _ = m * s := Nat.mul_comm _ _
  have hs0 : ∀ {i L : Nat}, i < s / L → 0 < s := by
    intro i L hi
    rcases Nat.eq_zero_or_pos s with h0 | h0
    · rw [h0] at hi; simp at hi
    · exact h0
  cases path with
  | serial =>
    obtain ⟨c, hc⟩ := htw
    unfold ditCoreS
    simp only [Items.region_loop, ← hN, hnr]
    apply ditA _ (ditG B T s) (L := L) (fun p _ k _ => c (s * p) k) hN' hL hLs hay hax hxy.symm
    · intro p _ i _ j l
      rw [vec, Ptr.add_add]; apply Ptr.add_congr; ring
    · intro p _ i _ k l
      rw [vec, Ptr.add_add]; apply Ptr.add_congr; rw [hN1]; ring
    · intro p hp i hi k l
      have hlt := hsp hp (hs0 hi)
      refine ⟨?_, ?_, ?_⟩
      · exact (hc (s * p) hlt k).2.1
      · exact hRW (mem_region (tw_idx1 hlt k.isLt))
      · rw [mem_region']; rintro ⟨h1, _⟩; exact hWx h1
    · intro p hp i hi xs k l
      have hlt := hsp hp (hs0 hi)
      rw [ditOut_lane hB]
      unfold ditG
      congr 1
      funext k'
      rw [(hc (s * p) hlt k').1]
      exact cj_lane _ _ _
    · exact hRy
    · exact hDx
  | omp =>
    obtain ⟨c, hc⟩ := htw
    unfold ditCoreS
    simp only [Items.region_loop, ← hN]
    rw [flatOmp m s h4 (N / r) hN1 (fun p i => bfly
        (fun j : Fin r => vec 4 (y + (i * 4 + r * (s * p) + s * j.val)))
        (fun _ : Fin 1 => dup 4 (W + s * p))
        (fun k : Fin r => vec 4 (x + (i * 4 + s * p + N / r * k.val)))
        (fun X T => ditOut (V := Fin 4 → C) B X (twOmp inv T)))]
    apply ditA _ (ditG B T s) (L := 4) (fun p _ _ _ => c (s * p)) hN' (by omega) h4 hay hax
      hxy.symm
    · intro p _ i _ j l
      rw [vec, Ptr.add_add]; apply Ptr.add_congr; ring
    · intro p _ i _ k l
      rw [vec, Ptr.add_add]; apply Ptr.add_congr; rw [hN1]; ring
    · intro p hp i hi k l
      have hlt := hsp hp (hs0 hi)
      refine ⟨?_, ?_, ?_⟩
      · exact (hc (s * p) hlt).2
      · exact hRW (mem_region hlt)
      · rw [mem_region']; rintro ⟨h1, _⟩; exact hWx h1
    · intro p hp i hi xs k l
      have hlt := hsp hp (hs0 hi)
      rw [ditOut_lane hB]
      unfold ditG
      congr 1
      funext k'
      rw [(hc (s * p) hlt).1]
      unfold twOmp
      rw [wpow_lane, cj_lane]
    · exact hRy
    · exact hDx

/-- the transposed stores of the stride-1 DIF cores -/
theorem transpOut_at {V : Type} (hr2 : 2 ∣ r) (o : Fin r → Fin 2 → V) (k : Fin r) (l : Fin 2)
    (hlt : (2 * k.val + l.val) / r < 2) :
    transpOut o k l = o (Fin.ofNat r (2 * k.val + l.val)) ⟨(2 * k.val + l.val) / r, hlt⟩ := by
  have hr : 0 < r := Nat.pos_of_ne_zero (NeZero.ne r)
  obtain ⟨c, hc⟩ := hr2
  unfold transpOut
  have hk := k.isLt
  split
  · rename_i h1
    have e : (2 * k.val + l.val) / r = 0 := Nat.div_eq_of_lt (by have := l.isLt; omega)
    have e' : (⟨(2 * k.val + l.val) / r, hlt⟩ : Fin 2) = 0 := Fin.ext e
    rw [e']
    fin_cases l <;> rfl
  · rename_i h1
    have e : (2 * k.val + l.val) / r = 1 := by
      have := l.isLt
      apply Nat.div_eq_of_lt_le <;> omega
    have e' : (⟨(2 * k.val + l.val) / r, hlt⟩ : Fin 2) = 1 := Fin.ext e
    rw [e']
    have e2 : ∀ j, Fin.ofNat r (2 * k.val - r + j) = Fin.ofNat r (2 * k.val + j) := by
      intro j
      apply Fin.ext
      show (2 * k.val - r + j) % r = (2 * k.val + j) % r
      rw [show 2 * k.val + j = 2 * k.val - r + j + r by omega, Nat.add_mod_right]
    fin_cases l
    · exact congrArg (fun z => o z 1) (e2 0)
    · exact congrArg (fun z => o z 1) (e2 1)

theorem transpIn_at {V : Type} (hr2 : 2 ∣ r) (g : Nat → V) (c : Fin r) (l : Fin 2) :
    transpIn (fun (j : Fin r) (l : Fin 2) => g (2 * j.val + l.val)) c l =
      g (r * l.val + c.val) := by
  have hr : 0 < r := Nat.pos_of_ne_zero (NeZero.ne r)
  obtain ⟨d, hd⟩ := hr2
  have hc := c.isLt
  unfold transpIn
  have e1 : (Fin.ofNat r (c.val / 2)).val = c.val / 2 := Nat.mod_eq_of_lt (by omega)
  have e2 : (Fin.ofNat r (c.val / 2 + r / 2)).val = c.val / 2 + r / 2 := Nat.mod_eq_of_lt (by omega)
  split
  · fin_cases l
    · simp only [catlo, Fin.zero_eta, Matrix.cons_val_zero, e1]
      congr 1
      simp; omega
    · simp only [catlo, Fin.mk_one, Matrix.cons_val_one, Matrix.cons_val_fin_one, e2]
      congr 1
      simp; omega
  · fin_cases l
    · simp only [cathi, Fin.zero_eta, Matrix.cons_val_zero, e1]
      congr 1
      simp; omega
    · simp only [cathi, Fin.mk_one, Matrix.cons_val_one, Matrix.cons_val_fin_one, e2]
      congr 1
      simp; omega

theorem difCore1_good (hB : LaneWise B) (hr2 : 2 ∣ r) (hN : N = r * m) (hm : 2 ∣ m)
    (hax : Arr h x N v) (hay : Alloc h y N) (hxy : Sep x N y N)
    (htw : TwOK path r N inv h W T) (hWy : W.buf ≠ y.buf)
    (hRx : Region x N ⊆ R) (hRW : Region W (tabLen path r N) ⊆ R) (hDy : Region y N ⊆ D) :
    ∃ h', Good R D (Items.region (difCore1 r B inv x y W C path N)) h h' ∧
      Arr h' y N (difPure r m 1 (difG B T 1) v) ∧ ∀ l, l ∉ Region y N → h' l = h l := by
  have hr : 0 < r := Nat.pos_of_ne_zero (NeZero.ne r)
  have hN1 : N / r = m := by rw [hN, Nat.mul_div_cancel_left _ hr]
  have hp : ∀ {i l : Nat}, i < m / 2 → l < 2 → 2 * i + l < N / r := by
    intro i l hi hl
    rw [hN1]; omega
  cases path with
  | serial =>
    obtain ⟨c, hc⟩ := htw
    unfold difCore1
    simp only [Items.region_loop]
    rw [show cnt (N / r) 2 = cnt m 2 by rw [hN1]]
    apply difB _ (difG B T 1) (L := 2) (fun i k l => c (2 * i + l.val) k) hN (by omega) hm hax hay
      hxy
    · intro i _ j l
      rw [vec, Ptr.add_add]; apply Ptr.add_congr; rw [hN1]; ring
    · intro i _ k l
      rw [vec, Ptr.add_add]; apply Ptr.add_congr; ring
    · intro i hi k l
      have hlt := hp hi l.isLt
      refine ⟨?_, ?_, ?_⟩
      · rw [vec, Ptr.add_add]
        rw [← (hc _ hlt k).2.2]
        congr 3
        ring
      · rw [vec, Ptr.add_add]
        rw [show 2 * i + k.val * (N / r) + l.val = (2 * i + l.val) + k.val * (N/r) by ring]
        exact hRW (mem_region (tw_idx2 hlt k.isLt))
      · rw [mem_region']; rintro ⟨h1, _⟩; exact hWy h1
    · intro i hi xs k l
      have hlt2 : (2 * k.val + l.val) / r < 2 :=
        Nat.div_lt_of_lt_mul (by have := k.isLt; have := l.isLt; omega)
      rw [transpOut_at hr2 _ k l hlt2, difOut_lane hB]
      unfold difG
      congr 1
      funext k'
      rw [Nat.one_mul, (hc _ (hp hi hlt2) k').1]
      exact cj_lane _ _ _
    · exact hRx
    · exact hDy
  | omp =>
    obtain ⟨c, hc⟩ := htw
    unfold difCore1
    simp only [Items.region_loop]
    rw [show cnt (N / r) 2 = cnt m 2 by rw [hN1]]
    apply difB _ (difG B T 1) (L := 2) (fun i _ l => c (2 * i + l.val)) hN (by omega) hm hax hay
      hxy
    · intro i _ j l
      rw [vec, Ptr.add_add]; apply Ptr.add_congr; rw [hN1]; ring
    · intro i _ k l
      rw [vec, Ptr.add_add]; apply Ptr.add_congr; ring
    · intro i hi k l
      have hlt := hp hi l.isLt
      refine ⟨?_, ?_, ?_⟩
      · rw [vec, Ptr.add_add]
        exact (hc _ hlt).2
      · rw [vec, Ptr.add_add]
        exact hRW (mem_region hlt)
      · rw [mem_region']; rintro ⟨h1, _⟩; exact hWy h1
    · intro i hi xs k l
      have hlt2 : (2 * k.val + l.val) / r < 2 :=
        Nat.div_lt_of_lt_mul (by have := k.isLt; have := l.isLt; omega)
      rw [transpOut_at hr2 _ k l hlt2, difOut_lane hB]
      unfold difG
      congr 1
      funext k'
      rw [Nat.one_mul, (hc _ (hp hi hlt2)).1]
      unfold twOmp
      rw [wpow_lane, cj_lane]
    · exact hRx
    · exact hDy

theorem ditCore1_good (hB : LaneWise B) (hr2 : 2 ∣ r) (hN : N = r * m) (hm : 2 ∣ m)
    (hay : Arr h y N v) (hax : Alloc h x N) (hxy : Sep x N y N)
    (htw : TwOK path r N inv h W T) (hWx : W.buf ≠ x.buf)
    (hRy : Region y N ⊆ R) (hRW : Region W (tabLen path r N) ⊆ R) (hDx : Region x N ⊆ D) :
    ∃ h', Good R D (Items.region (ditCore1 r B inv x y W C path N)) h h' ∧
      Arr h' x N (ditPure r m 1 (ditG B T 1) v) ∧ ∀ l, l ∉ Region x N → h' l = h l := by
  have hr : 0 < r := Nat.pos_of_ne_zero (NeZero.ne r)
  have hN1 : N / r = m := by rw [hN, Nat.mul_div_cancel_left _ hr]
  have hp : ∀ {i l : Nat}, i < m / 2 → l < 2 → 2 * i + l < N / r := by
    intro i l hi hl
    rw [hN1]; omega
  cases path with
  | serial =>
    obtain ⟨c, hc⟩ := htw
    unfold ditCore1
    simp only [Items.region_loop]
    rw [show cnt (N / r) 2 = cnt m 2 by rw [hN1]]
    apply ditB _ (ditG B T 1) (L := 2) (fun i k l => c (2 * i + l.val) k) hN (by omega) hm hay hax
      hxy.symm
    · intro i _ j l
      rw [vec, Ptr.add_add]; apply Ptr.add_congr; ring
    · intro i _ k l
      rw [vec, Ptr.add_add]; apply Ptr.add_congr; rw [hN1]; ring
    · intro i hi k l
      have hlt := hp hi l.isLt
      refine ⟨?_, ?_, ?_⟩
      · rw [vec, Ptr.add_add]
        rw [← (hc _ hlt k).2.2]
        congr 3
        ring
      · rw [vec, Ptr.add_add]
        rw [show 2 * i + k.val * (N / r) + l.val = (2 * i + l.val) + k.val * (N/r) by ring]
        exact hRW (mem_region (tw_idx2 hlt k.isLt))
      · rw [mem_region']; rintro ⟨h1, _⟩; exact hWx h1
    · intro i hi g k l
      rw [ditOut_lane hB]
      unfold ditG
      have e1 : (fun j => transpIn (fun (j : Fin r) (l : Fin 2) => g (2 * j.val + l.val)) j l) =
          fun j => g (r * l.val + j.val) := by
        funext j; exact transpIn_at hr2 g j l
      rw [e1]
      congr 1
      funext k'
      rw [Nat.one_mul, (hc _ (hp hi l.isLt) k').1]
      exact cj_lane _ _ _
    · exact hRy
    · exact hDx
  | omp =>
    obtain ⟨c, hc⟩ := htw
    unfold ditCore1
    simp only [Items.region_loop]
    rw [show cnt (N / r) 2 = cnt m 2 by rw [hN1]]
    apply ditB _ (ditG B T 1) (L := 2) (fun i _ l => c (2 * i + l.val)) hN (by omega) hm hay hax
      hxy.symm
    · intro i _ j l
      rw [vec, Ptr.add_add]; apply Ptr.add_congr; ring
    · intro i _ k l
      rw [vec, Ptr.add_add]; apply Ptr.add_congr; rw [hN1]; ring
    · intro i hi k l
      have hlt := hp hi l.isLt
      refine ⟨?_, ?_, ?_⟩
      · rw [vec, Ptr.add_add]
        exact (hc _ hlt).2
      · rw [vec, Ptr.add_add]
        exact hRW (mem_region hlt)
      · rw [mem_region']; rintro ⟨h1, _⟩; exact hWx h1
    · intro i hi g k l
      rw [ditOut_lane hB]
      unfold ditG
      have e1 : (fun j => transpIn (fun (j : Fin r) (l : Fin 2) => g (2 * j.val + l.val)) j l) =
          fun j => g (r * l.val + j.val) := by
        funext j; exact transpIn_at hr2 g j l
      rw [e1]
      congr 1
      funext k'
      rw [Nat.one_mul, (hc _ (hp hi l.isLt)).1]
      unfold twOmp
      rw [wpow_lane, cj_lane]
    · exact hRy
    · exact hDx

end cores
end OTFFT
