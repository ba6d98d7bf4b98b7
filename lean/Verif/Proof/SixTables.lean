/-
The tables of the six-step class, and its complete run.
-/
import Verif.Proof.EightMem

noncomputable section

namespace OTFFT

set_option linter.unusedSectionVars false

variable {F C : Type} [DArith F] [CArith F C]

section
variable {R D : Set Loc} {h : Heap C} {W Wm Ws : Ptr} {thr : Thr} {n : Nat}

theorem initW8xm_good {N : Nat} (hal : Alloc h W (N / 8)) (hD : Region W (N / 8) ⊆ D) :
    ∃ h', Good R D (initW8xm C thr N W) h h' ∧ Arr h' W (N / 8) (wr1Val C N) ∧
      ∀ l, l ∉ Region W (N / 8) → h' l = h l := by
  unfold initW8xm
  obtain ⟨h', g, hv, hf⟩ := phase_store (R := R) (D := D) (h := h) (n := N / 8) (c := 1)
      (fun p _ => W + p) (fun p _ => wr1Val C N p)
      (fun i _ j _ k l e => ⟨Ptr.add_inj e, Subsingleton.elim _ _⟩)
      (fun i hi k => hal i hi) (fun i hi k => hD (mem_region hi)) (!decide (N / 8 < thr.six))
  refine ⟨h', g, fun p hp => hv p hp 0, fun l hl => hf l ?_⟩
  rintro p hp k rfl
  exact hl (mem_region hp)

/-- cells of one row of the triangle -/
theorem row_region {m u j e : Nat} (hu : u < m) (hj : j < m - u) (he : e < 4) :
    4 * triBase m u + (4 * j + e) = 4 * sixIdx m u (u + j) + e ∧ 4 * j + e < 4 * (m - u) := by
  rw [sixIdx_eq (by omega) (by omega)]
  constructor <;> omega

theorem initWnxn_good (hal : Alloc h W (4 * sixL n)) (hD : Region W (4 * sixL n) ⊆ D) :
    ∃ h', Good R D (initWnxn C thr n W) h h' ∧ SixTab C n h' W ∧
      ∀ l, l ∉ Region W (4 * sixL n) → h' l = h l := by
  have row_le : ∀ {u}, u < n / 2 → 4 * triBase (n / 2) u + 4 * (n / 2 - u) ≤ 4 * sixL n := by
    intro u hu
    have := triBase_mono (m := n / 2) (u := u + 1) (v := n / 2) (by omega)
    rw [triBase_full] at this
    simp only [triBase] at this
    omega
  let vals : Nat → Nat → Fin 4 → C := fun u j =>
    ![nxnVal C n (2 * (u + j)) (2 * u), nxnVal C n (2 * (u + j) + 1) (2 * u),
      nxnVal C n (2 * (u + j)) (2 * u + 1), nxnVal C n (2 * (u + j) + 1) (2 * u + 1)]
  let wr : Nat → Nat → Fin 4 → Ptr := fun u j =>
    ![W + (4 * sixIdx (n / 2) u (u + j)), W + (4 * sixIdx (n / 2) u (u + j) + 1),
      W + (4 * sixIdx (n / 2) u (u + j) + 2), W + (4 * sixIdx (n / 2) u (u + j) + 3)]
  have hwr : ∀ u j (e : Fin 4), wr u j e = W + (4 * sixIdx (n / 2) u (u + j) + e.val) := by
    intro u j e; fin_cases e <;> rfl
  have hwr' : ∀ {u j} {e : Fin 4}, u < n / 2 → j < n / 2 - u →
      wr u j e = W + 4 * triBase (n / 2) u + (4 * j + e.val) := by
    intro u j e hu hj
    rw [hwr, Ptr.add_add, (row_region hu hj e.isLt).1]
  have one : ∀ u < n / 2, ∃ hf, Tr ∅ (Region (W + 4 * triBase (n / 2) u) (4 * (n / 2 - u)))
      (Code.toProg (Code.loop false (tasks1 (n / 2 - u) fun j => storeTask (wr u j) (vals u j)))) h () hf ∧
      ∀ j < n / 2 - u, ∀ e : Fin 4, hf (wr u j e).loc = some (some (vals u j e)) := by
    intro u hu
    have hle := row_le hu
    obtain ⟨hf, g, a, _⟩ := phase_store (R := ∅) (h := h)
      (D := Region (W + 4 * triBase (n / 2) u) (4 * (n / 2 - u))) (n := n / 2 - u) (c := 4) (wr u) (vals u)
      (by
        intro i hi j hj k l e
        rw [hwr' hu hi, hwr' hu hj] at e
        have := Ptr.add_inj e
        have hk := k.isLt
        have hl := l.isLt
        exact ⟨by omega, Fin.ext (by omega)⟩)
      (by
        intro j hj e
        rw [hwr' hu hj, Ptr.add_add]
        have := (row_region hu hj e.isLt).2
        exact hal _ (by omega))
      (by
        intro j hj e
        rw [hwr' hu hj]
        exact mem_region (row_region hu hj e.isLt).2) false
    exact ⟨hf, g.toProg, a⟩
  choose! hf htr harr using one
  have hdis : ∀ i < n / 2, ∀ j < n / 2, i ≠ j → ∀ l ∈ Region (W + 4 * triBase (n / 2) i) (4 * (n / 2 - i)),
      l ∉ Region (W + 4 * triBase (n / 2) j) (4 * (n / 2 - j)) := by
    have key : ∀ {a b : Nat}, a < b → triBase (n/2) a + (n/2 - a) ≤ triBase (n/2) b :=
      fun {a b} h => triBase_mono (m := n/2) (u := a + 1) h
    intro i hi j hj hij l h1 h2
    rw [mem_region'] at h1 h2
    simp only [Ptr.add_off] at h1 h2
    rcases Nat.lt_or_gt_of_ne hij with h | h
    · have := key h; omega
    · have := key h; omega
  obtain ⟨h', g, e1, e2⟩ := phase_blocks (h := h) (R := R) (D := D) (n / 2) _ _ hf htr
    (by
      rintro i hi j hj hij l hl (h1 | h1)
      · exact h1
      · exact hdis i hi j hj hij l hl h1)
    (by intro i _; exact Set.empty_subset _)
    (by
      intro i hi l hl
      exact hD (region_sub (row_le hi) hl))
  refine ⟨h', ?_, ?_, ?_⟩
  · unfold initWnxn
    exact g.loop _
  · intro u w huw hw e he f hf'
    obtain ⟨j, rfl⟩ : ∃ j, w = u + j := ⟨w - u, by omega⟩
    have hj : j < n / 2 - u := by omega
    have hu : u < n / 2 := by omega
    have key : ∀ c : Fin 4, h' (W + (4 * sixIdx (n / 2) u (u + j) + c.val)).loc = some (some (vals u j c)) := by
      intro c
      have hm : (wr u j c).loc ∈ Region (W + 4 * triBase (n / 2) u) (4 * (n / 2 - u)) := by
        rw [hwr' hu hj]; exact mem_region (row_region hu hj c.isLt).2
      have := harr u hu j hj c
      rw [← e1 u hu _ hm, hwr] at this
      exact this
    rcases two_cases he with rfl | rfl <;> rcases two_cases hf' with rfl | rfl
    · exact key 0
    · exact key 2
    · exact key 1
    · exact key 3
  · intro l hl
    refine e2 l ?_
    intro i hi hc
    exact hl (region_sub (row_le hi) hc)

theorem initSub_eq (n : Nat) : initSub C thr n W = stockhamTable C thr (n + 1) 8 n W := by
  unfold initSub stockhamTable
  simp

theorem initSub_good {k : Nat} (hn : n = 2 ^ k) (hal : Alloc h Ws (subLen n)) (hD : Region Ws (subLen n) ⊆ D) :
    ∃ h', Good R D (initSub C thr n Ws) h h' ∧ SubTab C n h' Ws ∧
      ∀ l, l ∉ Region Ws (subLen n) → h' l = h l := by
  rw [initSub_eq]
  refine stockhamTable_good (by omega) ?_ hal hD
  intro hlt
  rw [hn] at hlt ⊢
  have : 3 ≤ k := by
    by_contra hc
    have : 2 ^ k ≤ 2 ^ 2 := Nat.pow_le_pow_right (by omega) (by omega)
    omega
  exact pow_dvd_pow 2 this

theorem subLen_eq (n : Nat) : (if n ≤ 8 then 0 else 2 * n) = subLen n := by
  unfold subLen stockhamTabLen
  simp

theorem nxnLen_eq (h2 : 2 ∣ n) : n * (n + 2) / 2 = 4 * sixL n := by
  obtain ⟨m, rfl⟩ := h2
  have e := two_dvd_succ m
  unfold sixL
  rw [Nat.mul_div_cancel_left m (by omega : 0 < 2)]
  have : 2 * m * (2 * m + 2) = 4 * (m * (m + 1)) := by ring
  omega

/-- what `setup2(k)` leaves in the tables of the six-step class -/
def SixReady (C : Type) [CArith F C] (k : Nat) (h : Heap C) (W Wm Ws : Ptr) : Prop :=
  if k ≤ 5 then SubTab C (2 ^ k) h W
  else if k % 2 = 1 then
    Arr h W (2 ^ k / 8) (wr1Val C (2 ^ k)) ∧ SixTab C (2 ^ (k / 2 - 1)) h Wm ∧
      SubTab C (2 ^ (k / 2 - 1)) h Ws
  else SixTab C (2 ^ (k / 2)) h W ∧ SubTab C (2 ^ (k / 2)) h Ws

theorem SixReady.frame {k : Nat} {h h' : Heap C} (t : SixReady C k h W Wm Ws)
    (e1 : ∀ i < (sixTabLen k).1, h' (W + i).loc = h (W + i).loc)
    (e2 : ∀ i < (sixTabLen k).2.1, h' (Wm + i).loc = h (Wm + i).loc)
    (e3 : ∀ i < (sixTabLen k).2.2, h' (Ws + i).loc = h (Ws + i).loc) : SixReady C k h' W Wm Ws := by
  unfold SixReady at *
  unfold sixTabLen at e1 e2 e3
  split
  · rename_i hk
    simp only [hk, if_true] at t e1
    rw [subLen_eq] at e1
    exact t.frame e1
  rename_i hk
  simp only [hk, if_false] at t e1 e2 e3
  split
  · rename_i hk2
    have h2 : 2 ∣ 2 ^ (k / 2 - 1) := dvd_pow_self 2 (by omega)
    simp only [hk2, if_true] at t e1 e2 e3
    simp only [nxnLen_eq h2, subLen_eq] at e2 e3
    exact ⟨fun i hi => by rw [e1 i hi]; exact t.1 i hi, t.2.1.frame e2, t.2.2.frame e3⟩
  · rename_i hk2
    have h2 : 2 ∣ 2 ^ (k / 2) := dvd_pow_self 2 (by omega)
    simp only [hk2, if_false] at t e1 e3
    simp only [nxnLen_eq h2, subLen_eq] at e1 e3
    exact ⟨t.1.frame e1, t.2.frame e3⟩

theorem sixTable_good {k : Nat} (hal : Alloc h W (sixTabLen k).1) (halm : Alloc h Wm (sixTabLen k).2.1)
    (hals : Alloc h Ws (sixTabLen k).2.2) (hWm : W.buf ≠ Wm.buf) (hWs : W.buf ≠ Ws.buf) (hms : Wm.buf ≠ Ws.buf)
    (hD : Region W (sixTabLen k).1 ⊆ D) (hDm : Region Wm (sixTabLen k).2.1 ⊆ D)
    (hDs : Region Ws (sixTabLen k).2.2 ⊆ D) :
    ∃ h', Good R D (sixTable C thr k W Wm Ws) h h' ∧ SixReady C k h' W Wm Ws ∧
      ∀ l, l ∉ Region W (sixTabLen k).1 → l ∉ Region Wm (sixTabLen k).2.1 →
        l ∉ Region Ws (sixTabLen k).2.2 → h' l = h l := by
  unfold sixTable SixReady
  unfold sixTabLen at *
  split
  · rename_i hk
    simp only [hk, if_true] at *
    rw [subLen_eq] at *
    obtain ⟨h', g, a, f⟩ := initSub_good (R := R) (thr := thr) rfl hal hD
    exact ⟨h', g, a, fun l h1 _ _ => f l h1⟩
  rename_i hk
  have hk' : 5 < k := by omega
  simp only [hk, if_false] at *
  split
  · rename_i hk2
    have h2 : 2 ∣ 2 ^ (k / 2 - 1) := dvd_pow_self 2 (by omega)
    simp only [hk2, if_true] at *
    simp only [nxnLen_eq h2, subLen_eq] at *
    obtain ⟨h1, g1, a1, f1⟩ := initW8xm_good (R := R) (D := D) (thr := thr) hal hD
    obtain ⟨h2', g2, a2, f2⟩ := initWnxn_good (R := R) (D := D) (thr := thr) (halm.of_eq g1.alloc) hDm
    obtain ⟨h3, g3, a3, f3⟩ := initSub_good (R := R) (D := D) (thr := thr) (Ws := Ws) rfl
      ((hals.of_eq g1.alloc).of_eq g2.alloc) hDs
    refine ⟨h3, g1.append (g2.append g3), ⟨?_, ?_, a3⟩, ?_⟩
    · intro i hi
      rw [f3 _ (region_out hWs), f2 _ (region_out hWm)]; exact a1 i hi
    · exact a2.frame fun i _ => f3 _ (region_out hms)
    · intro l hl1 hl2 hl3
      rw [f3 l hl3, f2 l hl2, f1 l hl1]
  · rename_i hk2
    have h2 : 2 ∣ 2 ^ (k / 2) := dvd_pow_self 2 (by omega)
    simp only [hk2, if_false] at *
    simp only [nxnLen_eq h2, subLen_eq] at *
    obtain ⟨h2', g2, a2, f2⟩ := initWnxn_good (R := R) (D := D) (thr := thr) hal hD
    obtain ⟨h3, g3, a3, f3⟩ := initSub_good (R := R) (D := D) (thr := thr) (Ws := Ws) rfl
      (hals.of_eq g2.alloc) hDs
    refine ⟨h3, g2.append g3, ⟨?_, a3⟩, ?_⟩
    · exact a2.frame fun i _ => f3 _ (region_out hWs)
    · intro l hl1 hl2 hl3
      rw [f3 l hl3, f2 l hl1]

end

/-- a transform of the six-step class as a function on arrays -/
def sixOut (inv : Bool) (mode : ScaleMode) (k : Nat) (v : Nat → C) : Nat → C :=
  if k ≤ 5 then difRec 8 (bf8 inv) inv (stockhamTw C .serial 8 (2 ^ k) inv) mode (2 ^ k) 1 v
  else if k % 2 = 1 then eightPure inv mode (2 ^ (k / 2 - 1)) v
  else sixPure inv mode (2 ^ (k / 2)) v

theorem pow_split_odd {k : Nat} (hk : ¬ k ≤ 5) (h : k % 2 = 1) :
    2 ^ k = 8 * (2 ^ (k / 2 - 1) * 2 ^ (k / 2 - 1)) := by
  rw [← pow_add, show (8 : Nat) = 2 ^ 3 by norm_num, ← pow_add]
  congr 1; omega

theorem pow_split_even {k : Nat} (h : ¬ k % 2 = 1) : 2 ^ k = 2 ^ (k / 2) * 2 ^ (k / 2) := by
  rw [← pow_add]; congr 1; omega

theorem sixRun_good {R D : Set Loc} {h : Heap C} {x y W Wm Ws : Ptr} {v : Nat → C} {thr : Thr} {k : Nat}
    {inv : Bool} {mode : ScaleMode} (hk1 : 1 ≤ k) (hk2 : k ≤ 24)
    (hax : Arr h x (2 ^ k) v) (hay : Alloc h y (2 ^ k)) (hxy : Sep x (2 ^ k) y (2 ^ k))
    (hT : SixReady C k h W Wm Ws) (hWx : W.buf ≠ x.buf) (hWy : W.buf ≠ y.buf)
    (hWmx : Wm.buf ≠ x.buf) (hWmy : Wm.buf ≠ y.buf) (hWsx : Ws.buf ≠ x.buf) (hWsy : Ws.buf ≠ y.buf)
    (hRx : Region x (2 ^ k) ⊆ R) (hRy : Region y (2 ^ k) ⊆ R)
    (hRW : Region W (sixTabLen k).1 ⊆ R) (hRWm : Region Wm (sixTabLen k).2.1 ⊆ R)
    (hRWs : Region Ws (sixTabLen k).2.2 ⊆ R)
    (hDx : Region x (2 ^ k) ⊆ D) (hDy : Region y (2 ^ k) ⊆ D) :
    ∃ h', Good R D (sixRun C thr inv mode k x y W Wm Ws) h h' ∧
      Arr h' x (2 ^ k) (sixOut inv mode k v) ∧
      ∀ l, l ∉ Region x (2 ^ k) → l ∉ Region y (2 ^ k) → h' l = h l := by
  have hcap : ∀ j, j ≤ 15 → 2 ^ j ≤ 32768 := fun j hj => by
    calc 2 ^ j ≤ 2 ^ 15 := Nat.pow_le_pow_right (by omega) hj
      _ = 32768 := by norm_num
  unfold sixRun sixOut
  unfold SixReady at hT
  unfold sixTabLen at hRW hRWm hRWs
  rw [if_neg (by omega)]
  split
  · rename_i h5
    simp only [h5, if_true] at hT hRW
    rw [subLen_eq] at hRW
    have hpath : pathOf (2 ^ k + 1) (2 ^ k) = .serial := by simp [pathOf]
    exact difFFT_good (mode := mode) (path := .serial) (L := 4) (inv := inv) (W := W)
      (T := stockhamTw C .serial 8 (2 ^ k) inv)
      (lane_bf8 inv) (2 ^ k) k 1 (2 ^ k) false x y v h
      { hr := by omega, hL := by omega, hk := hk1, hn := rfl, hs := by omega, hpos := by omega, hN := by omega }
      hax hay hxy
      (by
        intro hlt
        have := hT hlt inv
        rwa [hpath] at this)
      hWx hWy hRx hRy
      (by
        intro hlt l hl
        apply hRW
        unfold subLen
        rw [← tabLen_eq hlt, hpath]; exact hl)
      hDx hDy
  rename_i h5
  simp only [h5, if_false] at hT hRW hRWm hRWs
  split
  · rename_i ho
    have h2 : 2 ∣ 2 ^ (k / 2 - 1) := dvd_pow_self 2 (by omega)
    simp only [ho, if_true] at hT hRW hRWm hRWs
    simp only [nxnLen_eq h2, subLen_eq] at hRWm hRWs
    have e := pow_split_odd h5 ho
    have e8 : 2 ^ k / 8 = 2 ^ (k / 2 - 1) * 2 ^ (k / 2 - 1) := by omega
    rw [e8] at hT hRW
    rw [e] at hax hay hxy hT hRx hRy hDx hDy ⊢
    have hiv : sixIv k = ivBuild (2 ^ (k / 2 - 1)) := by simp [sixIv, h5, ho]
    rw [hiv]
    exact eightFFT_good rfl (by omega) (hcap _ (by omega)) hax hay hxy hT.1 hWx hWy hT.2.1 hWmx hWmy hT.2.2 hWsx hWsy
      hRx hRy hRW hRWm hRWs hDx hDy
  · rename_i ho
    have h2 : 2 ∣ 2 ^ (k / 2) := dvd_pow_self 2 (by omega)
    simp only [ho, if_false] at hT hRW hRWs
    simp only [nxnLen_eq h2, subLen_eq] at hRW hRWs
    have e := pow_split_even ho
    rw [e] at hax hay hxy hRx hRy hDx hDy ⊢
    have hiv : sixIv k = ivBuild (2 ^ (k / 2)) := by simp [sixIv, h5, ho]
    rw [hiv]
    unfold sixFFT
    exact sixPart_good (by split <;> decide) rfl (by omega) (hcap _ (by omega)) hax hay hxy hT.1 hWx hWy hT.2
      hWsx hWsy hRx hRy hRW hRWs hDx hDy

end OTFFT
