/-
Layer 1 for the eight-step algorithm.
-/
import Verif.Proof.SixRun

noncomputable section

namespace OTFFT

set_option linter.unusedSectionVars false

variable {F C : Type} [DArith F] [CArith F C]

/-- first pass of the eight-step algorithm as a function on arrays -/
def eightPreV (inv : Bool) (mode : ScaleMode) (N1 : Nat) (v : Nat → C) : Nat → C := fun t =>
  difOut (bf8 inv) (fun j => scalepz (8 * N1) mode (v (t % N1 + N1 * j.val)))
    (fun k => wpow (cj inv (wr1Val C (8 * N1) (t % N1))) (k.val + 1)) (Fin.ofNat 8 (t / N1))

/-- the eight six-step transforms -/
def eightSubV (inv : Bool) (n : Nat) (v : Nat → C) : Nat → C := fun t =>
  sixPure inv .scale_1 n (fun j => v (t / (n * n) * (n * n) + j)) (t % (n * n))

/-- final pass -/
def eightTranspV (N1 : Nat) (v : Nat → C) : Nat → C := fun t => v (t / 8 + N1 * (t % 8))

/-- the eight-step transform of length `8*n*n` as a function on arrays -/
def eightPure (inv : Bool) (mode : ScaleMode) (n : Nat) (v : Nat → C) : Nat → C :=
  eightTranspV (n * n) (eightSubV inv n (eightPreV inv mode (n * n) v))

section
variable {R D : Set Loc} {h : Heap C} {x y W Wm Ws : Ptr} {v : Nat → C} {n k N1 : Nat} {inv : Bool}
  {mode : ScaleMode}

theorem eightPre_good (hN1 : 2 ∣ N1) (hax : Arr h x (8 * N1) v) (hay : Alloc h y (8 * N1))
    (hxy : Sep x (8 * N1) y (8 * N1)) (hW : Arr h W N1 (wr1Val C (8 * N1))) (hWy : W.buf ≠ y.buf)
    (hRx : Region x (8 * N1) ⊆ R) (hRW : Region W N1 ⊆ R) (hDy : Region y (8 * N1) ⊆ D) :
    ∃ h', PhaseGood R D (tasks1 (cnt N1 2) (eightPre C inv mode (8 * N1) x y W)) h h' ∧
      Arr h' y (8 * N1) (eightPreV inv mode N1 v) ∧ ∀ l, l ∉ Region y (8 * N1) → h' l = h l := by
  have e8 : 8 * N1 / 8 = N1 := by omega
  rw [cnt_of_dvd (by omega) hN1]
  unfold tasks1 eightPre
  simp only [e8]
  have hp : ∀ {i l : Nat}, i < N1 / 2 → l < 2 → 2 * i + l < N1 := by intro i l h1 h2; omega
  refine phase_arr (List.range (N1 / 2)) List.nodup_range
    (fun i j l => v (2 * i + l.val + N1 * j.val)) (fun i _ l => wr1Val C (8 * N1) (2 * i + l.val))
    y (8 * N1) _ (fun t => t % N1 / 2) ?_ ?_ ?_ ?_ hay ?_ ?_ ?_ ?_ hDy
  · intro i hi j l
    have hi := List.mem_range.1 hi
    have : 2 * i + l.val + N1 * j.val < N1 * 8 := idx_lt (hp hi l.isLt) j.isLt
    rw [vec, Ptr.add_add, show 2 * i + N1 * j.val + l.val = 2 * i + l.val + N1 * j.val by omega]
    exact hax _ (by omega)
  · intro i hi j l
    have hi := List.mem_range.1 hi
    rw [vec, Ptr.add_add]
    exact hW _ (hp hi l.isLt)
  · intro i hi k l
    have hi := List.mem_range.1 hi
    have hlt := hp hi l.isLt
    have : 2 * i + l.val + N1 * k.val < N1 * 8 := idx_lt hlt k.isLt
    refine ⟨2 * i + l.val + N1 * k.val, by omega, ?_, ?_, ?_⟩
    · rw [vec, Ptr.add_add]; apply Ptr.add_congr; omega
    · show (2 * i + l.val + N1 * k.val) % N1 / 2 = i
      rw [idx_mod hlt]; omega
    · unfold eightPreV
      rw [difOut_lane (lane_bf8 inv), idx_mod hlt, idx_div hlt,
        ofNat_of_mod k (Nat.mod_eq_of_lt k.isLt)]
      congr 1
      · funext j; exact scalepz_lane _ _ _ _
      · funext k'; unfold twOmp; rw [wpow_lane, cj_lane]
  · intro t ht
    have hpos : 0 < N1 := by omega
    have hm := Nat.mod_lt t hpos
    have h8 : t / N1 < 8 := Nat.div_lt_of_lt_mul (by omega)
    refine ⟨List.mem_range.2 (by omega), ⟨t / N1, h8⟩, ⟨t % N1 % 2, by omega⟩, ?_⟩
    rw [vec, Ptr.add_add]; apply Ptr.add_congr
    simp only
    have := Nat.mod_add_div t N1
    omega
  · intro i hi j l t ht e
    exfalso
    have hi := List.mem_range.1 hi
    have hlt : 2 * i + l.val + N1 * j.val < N1 * 8 := idx_lt (hp hi l.isLt) j.isLt
    rw [vec, Ptr.add_add] at e
    exact hxy _ (by omega) t ht e
  · intro i hi j l t ht e
    exact absurd (congrArg Ptr.buf e) hWy
  · intro i hi j l
    have hi := List.mem_range.1 hi
    have : 2 * i + l.val + N1 * j.val < N1 * 8 := idx_lt (hp hi l.isLt) j.isLt
    rw [vec, Ptr.add_add]
    exact hRx (mem_region (by omega))
  · intro i hi j l
    have hi := List.mem_range.1 hi
    rw [vec, Ptr.add_add]
    exact hRW (mem_region (hp hi l.isLt))

theorem eightTransp_good (par : Bool) (hN1 : 2 ∣ N1) (hay : Arr h y (8 * N1) v) (hax : Alloc h x (8 * N1))
    (hxy : Sep x (8 * N1) y (8 * N1)) (hRy : Region y (8 * N1) ⊆ R) (hDx : Region x (8 * N1) ⊆ D) :
    ∃ h', Good R D (Code.loop par (tasks1 (cnt N1 2) (eightTransp C (8 * N1) y x))) h h' ∧
      Arr h' x (8 * N1) (eightTranspV N1 v) ∧ ∀ l, l ∉ Region x (8 * N1) → h' l = h l := by
  have e8 : 8 * N1 / 8 = N1 := by omega
  unfold eightTransp
  simp only [e8]
  obtain ⟨h', g, a, f⟩ := difB (R := R) (D := D) (x := y) (y := x) (h := h) (L := 2) (b := 0) (m := N1) par
    (fun _ xs k => xs k)
    (rd := fun i (j : Fin 8) => vec 2 (y + (2 * i + N1 * j.val)))
    (tw := fun _ => Fin.elim0)
    (wr := fun i (k : Fin 8) => vec 2 (x + (8 * (2 * i) + 2 * k.val)))
    (f := fun _ X _ => transpOut (r := 8) X)
    (fun _ k _ => k.elim0) rfl (by omega) hN1 hay hax hxy.symm
    (by intro i _ j l; rw [vec, Ptr.add_add]; apply Ptr.add_congr; omega)
    (by intro i _ j l; rw [vec, Ptr.add_add]; apply Ptr.add_congr; omega)
    (fun _ _ k => k.elim0)
    (by intro i _ xs k l; fin_cases k <;> fin_cases l <;> rfl)
    hRy hDx
  refine ⟨h', g, ?_, f⟩
  intro t ht
  rw [a t ht]
  congr 2
  unfold difPure eightTranspV
  simp only [Nat.mod_one, Nat.div_one, Nat.zero_add, Nat.one_mul, Fin.ofNat]

/-- one of the eight six-step transforms of the middle pass -/
def eightSub (C : Type) [CArith F C] (inv : Bool) (n : Nat) (x y Wm Ws : Ptr) (i : Nat) : Code C :=
  Items.region (sixPart C (ivBuild n) .serial inv .scale_1 n (y + i * (n * n)) (x + i * (n * n)) Wm Ws)

theorem blk_le {N1 i : Nat} (hi : i < 8) : i * N1 + N1 ≤ 8 * N1 := by
  calc i * N1 + N1 = (i + 1) * N1 := by ring
    _ ≤ 8 * N1 := Nat.mul_le_mul_right _ hi

/-- hypotheses of the middle pass -/
structure EightHyp (C : Type) [CArith F C] (n k : Nat) (x y Wm Ws : Ptr) (h : Heap C) : Prop where
  hn : n = 2 ^ k
  hk : 1 ≤ k
  hle : n ≤ 32768
  hay : Alloc h y (8 * (n * n))
  hax : Alloc h x (8 * (n * n))
  hxy : Sep x (8 * (n * n)) y (8 * (n * n))
  hWm : SixTab C n h Wm
  hWmx : Wm.buf ≠ x.buf
  hWmy : Wm.buf ≠ y.buf
  hWs : SubTab C n h Ws
  hWsx : Ws.buf ≠ x.buf
  hWsy : Ws.buf ≠ y.buf

theorem eightSub_one (hy : EightHyp C n k x y Wm Ws h) {i : Nat} (hi : i < 8)
    (ha : Arr h (y + i * (n * n)) (n * n) v)
    (hR1 : Region (y + i * (n * n)) (n * n) ⊆ R) (hR2 : Region (x + i * (n * n)) (n * n) ⊆ R)
    (hRW : Region Wm (4 * sixL n) ⊆ R) (hRWs : Region Ws (subLen n) ⊆ R)
    (hD1 : Region (y + i * (n * n)) (n * n) ⊆ D) (hD2 : Region (x + i * (n * n)) (n * n) ⊆ D) :
    ∃ h', Good R D (eightSub C inv n x y Wm Ws i) h h' ∧
      Arr h' (y + i * (n * n)) (n * n) (sixPure inv .scale_1 n v) ∧
      ∀ l, l ∉ Region (y + i * (n * n)) (n * n) → l ∉ Region (x + i * (n * n)) (n * n) → h' l = h l := by
  have hle := blk_le (N1 := n * n) hi
  refine sixPart_good (by decide) hy.hn hy.hk hy.hle ha ?_ ?_ hy.hWm hy.hWmy hy.hWmx hy.hWs hy.hWsy hy.hWsx
    hR1 hR2 hRW hRWs hD1 hD2
  · intro t ht
    rw [Ptr.add_add]; exact hy.hax _ (by omega)
  · intro a ha b hb
    rw [Ptr.add_add, Ptr.add_add]; exact hy.hxy.symm _ (by omega) _ (by omega)

theorem EightHyp.frame {h' : Heap C} (hy : EightHyp C n k x y Wm Ws h)
    (hal : ∀ l, h l ≠ none → h' l ≠ none)
    (f : ∀ l, l ∉ Region y (8 * (n * n)) → l ∉ Region x (8 * (n * n)) → h' l = h l) :
    EightHyp C n k x y Wm Ws h' :=
  { hy with
    hay := hy.hay.of_eq hal
    hax := hy.hax.of_eq hal
    hWm := hy.hWm.frame fun i _ => f _ (region_out hy.hWmy) (region_out hy.hWmx)
    hWs := hy.hWs.frame fun i _ => f _ (region_out hy.hWsy) (region_out hy.hWsx) }

theorem blocks_arr {N1 : Nat} {h' : Heap C} {u : Nat → Nat → C}
    (ha : ∀ i < 8, Arr h' (y + i * N1) N1 (u i)) :
    Arr h' y (8 * N1) (fun t => u (t / N1) (t % N1)) := by
  intro t ht
  have hpos : 0 < N1 := by omega
  have hp : t / N1 < 8 := Nat.div_lt_of_lt_mul (by omega)
  have e : y + t = y + t / N1 * N1 + t % N1 := by
    rw [Ptr.add_add]; apply Ptr.add_congr; rw [Nat.mul_comm]; exact (Nat.div_add_mod t N1).symm
  rw [e, ha _ hp _ (Nat.mod_lt t hpos)]

theorem eightMid_serial (hy : EightHyp C n k x y Wm Ws h) (ha : Arr h y (8 * (n * n)) v)
    (hRy : Region y (8 * (n * n)) ⊆ R) (hRx : Region x (8 * (n * n)) ⊆ R)
    (hRW : Region Wm (4 * sixL n) ⊆ R) (hRWs : Region Ws (subLen n) ⊆ R)
    (hDy : Region y (8 * (n * n)) ⊆ D) (hDx : Region x (8 * (n * n)) ⊆ D) :
    ∃ h', Good R D ((List.range 8).flatMap (eightSub C inv n x y Wm Ws)) h h' ∧
      Arr h' y (8 * (n * n)) (eightSubV inv n v) ∧
      ∀ l, l ∉ Region y (8 * (n * n)) → l ∉ Region x (8 * (n * n)) → h' l = h l := by
  suffices H : ∀ m ≤ 8, ∃ h', Good R D ((List.range m).flatMap (eightSub C inv n x y Wm Ws)) h h' ∧
      (∀ i < 8, Arr h' (y + i * (n * n)) (n * n)
        (if i < m then sixPure inv .scale_1 n (fun j => v (i * (n * n) + j))
          else fun j => v (i * (n * n) + j))) ∧
      ∀ l, l ∉ Region y (8 * (n * n)) → l ∉ Region x (8 * (n * n)) → h' l = h l by
    obtain ⟨h', g, a, f⟩ := H 8 (le_refl _)
    refine ⟨h', g, ?_, f⟩
    refine blocks_arr (u := fun i => sixPure inv .scale_1 n (fun j => v (i * (n * n) + j))) ?_
    intro i hi
    have := a i hi
    rwa [if_pos hi] at this
  intro m
  induction m with
  | zero =>
    intro _
    refine ⟨h, .nil, ?_, fun _ _ _ => rfl⟩
    intro i hi t ht
    have hle := blk_le (N1 := n * n) hi
    rw [Ptr.add_add, if_neg (by omega)]; exact ha _ (by omega)
  | succ m ih =>
    intro hm
    obtain ⟨h1, g1, a1, f1⟩ := ih (by omega)
    have hm8 : m < 8 := by omega
    have hy1 := hy.frame g1.alloc f1
    have am := a1 m hm8
    rw [if_neg (by omega)] at am
    have sub : ∀ z : Ptr, Region (z + m * (n * n)) (n * n) ⊆ Region z (8 * (n * n)) :=
      fun z => region_sub (blk_le hm8)
    obtain ⟨h2, g2, a2, f2⟩ := eightSub_one (R := R) (D := D) (inv := inv) hy1 hm8 am ((sub y).trans hRy) ((sub x).trans hRx)
      hRW hRWs ((sub y).trans hDy) ((sub x).trans hDx)
    refine ⟨h2, ?_, ?_, ?_⟩
    · rw [List.range_succ, List.flatMap_append]
      refine g1.append ?_
      simpa using g2
    · intro i hi t ht
      by_cases him : i = m
      · subst him
        rw [a2 t ht, if_pos (by omega)]
      · rw [f2]
        · rw [a1 i hi t ht]
          by_cases h3 : i < m
          · rw [if_pos h3, if_pos (by omega)]
          · rw [if_neg h3, if_neg (by omega)]
        · exact row_disj him (mem_region ht)
        · intro hc
          exact hy.hxy.not_mem (sub x hc) (region_sub (blk_le hi) (mem_region ht))
    · intro l hl1 hl2
      rw [f2 l (fun hc => hl1 (sub y hc)) (fun hc => hl2 (sub x hc)), f1 l hl1 hl2]

theorem eightMid_par (hy : EightHyp C n k x y Wm Ws h) (ha : Arr h y (8 * (n * n)) v)
    (hRy : Region y (8 * (n * n)) ⊆ R) (hRx : Region x (8 * (n * n)) ⊆ R)
    (hRW : Region Wm (4 * sixL n) ⊆ R) (hRWs : Region Ws (subLen n) ⊆ R)
    (hDy : Region y (8 * (n * n)) ⊆ D) (hDx : Region x (8 * (n * n)) ⊆ D) :
    ∃ h', PhaseGood R D (tasks1 8 fun i => (eightSub C inv n x y Wm Ws i).toProg) h h' ∧
      Arr h' y (8 * (n * n)) (eightSubV inv n v) ∧
      ∀ l, l ∉ Region y (8 * (n * n)) → l ∉ Region x (8 * (n * n)) → h' l = h l := by
  have one : ∀ i < 8, ∃ hf, Tr (Region (y + i * (n * n)) (n * n) ∪ Region (x + i * (n * n)) (n * n) ∪
      (Region Wm (4 * sixL n) ∪ Region Ws (subLen n)))
      (Region (y + i * (n * n)) (n * n) ∪ Region (x + i * (n * n)) (n * n))
      (eightSub C inv n x y Wm Ws i).toProg h () hf ∧
      Arr hf (y + i * (n * n)) (n * n) (sixPure inv .scale_1 n (fun j => v (i * (n * n) + j))) := by
    intro i hi
    have hle := blk_le (N1 := n * n) hi
    obtain ⟨hf, g, a, _⟩ := eightSub_one (inv := inv) (v := fun j => v (i * (n * n) + j))
      (R := Region (y + i * (n * n)) (n * n) ∪ Region (x + i * (n * n)) (n * n) ∪
        (Region Wm (4 * sixL n) ∪ Region Ws (subLen n)))
      (D := Region (y + i * (n * n)) (n * n) ∪ Region (x + i * (n * n)) (n * n))
      hy hi (by intro t ht; rw [Ptr.add_add]; exact ha _ (by omega))
      (fun l hl => Or.inl (Or.inl hl)) (fun l hl => Or.inl (Or.inr hl))
      (fun l hl => Or.inr (Or.inl hl)) (fun l hl => Or.inr (Or.inr hl))
      (fun l hl => Or.inl hl) (fun l hl => Or.inr hl)
    exact ⟨hf, g.toProg, a⟩
  choose! hf htr harr using one
  have sub : ∀ {i}, i < 8 → ∀ z : Ptr, Region (z + i * (n * n)) (n * n) ⊆ Region z (8 * (n * n)) :=
    fun hi z => region_sub (blk_le hi)
  obtain ⟨h', g, e1, e2⟩ := phase_blocks (h := h) (R := R) (D := D) 8 _ _ hf htr
    (by
      intro i hi j hj hij l hl
      rcases hl with hl | hl
      · rintro (((h1 | h1) | (h1 | h1)) | (h1 | h1))
        · exact row_disj hij hl h1
        · exact hy.hxy.not_mem (sub hj x h1) (sub hi y hl)
        · exact region_disj (p := y + i * (n * n)) (Ne.symm hy.hWmy) hl h1
        · exact region_disj (p := y + i * (n * n)) (Ne.symm hy.hWsy) hl h1
        · exact row_disj hij hl h1
        · exact hy.hxy.not_mem (sub hj x h1) (sub hi y hl)
      · rintro (((h1 | h1) | (h1 | h1)) | (h1 | h1))
        · exact hy.hxy.not_mem (sub hi x hl) (sub hj y h1)
        · exact row_disj hij hl h1
        · exact region_disj (p := x + i * (n * n)) (Ne.symm hy.hWmx) hl h1
        · exact region_disj (p := x + i * (n * n)) (Ne.symm hy.hWsx) hl h1
        · exact hy.hxy.not_mem (sub hi x hl) (sub hj y h1)
        · exact row_disj hij hl h1)
    (by
      rintro i hi l ((hl | hl) | (hl | hl))
      · exact hRy (sub hi y hl)
      · exact hRx (sub hi x hl)
      · exact hRW hl
      · exact hRWs hl)
    (by
      rintro i hi l (hl | hl)
      · exact hDy (sub hi y hl)
      · exact hDx (sub hi x hl))
  refine ⟨h', g, ?_, ?_⟩
  · refine blocks_arr (u := fun i => sixPure inv .scale_1 n (fun j => v (i * (n * n) + j))) ?_
    intro i hi t ht
    rw [e1 i hi _ (Or.inl (mem_region ht)), harr i hi t ht]
  · intro l h1 h2
    refine e2 l ?_
    rintro i hi (hl | hl)
    · exact h1 (sub hi y hl)
    · exact h2 (sub hi x hl)

theorem eightFFT_good {thr : Thr} (hn : n = 2 ^ k) (hk : 1 ≤ k) (hle : n ≤ 32768)
    (hax : Arr h x (8 * (n * n)) v) (hay : Alloc h y (8 * (n * n)))
    (hxy : Sep x (8 * (n * n)) y (8 * (n * n)))
    (hW : Arr h W (n * n) (wr1Val C (8 * (n * n)))) (hWx : W.buf ≠ x.buf) (hWy : W.buf ≠ y.buf)
    (hWm : SixTab C n h Wm) (hWmx : Wm.buf ≠ x.buf) (hWmy : Wm.buf ≠ y.buf)
    (hWs : SubTab C n h Ws) (hWsx : Ws.buf ≠ x.buf) (hWsy : Ws.buf ≠ y.buf)
    (hRx : Region x (8 * (n * n)) ⊆ R) (hRy : Region y (8 * (n * n)) ⊆ R)
    (hRW : Region W (n * n) ⊆ R)
    (hRWm : Region Wm (4 * sixL n) ⊆ R) (hRWs : Region Ws (subLen n) ⊆ R)
    (hDx : Region x (8 * (n * n)) ⊆ D) (hDy : Region y (8 * (n * n)) ⊆ D) :
    ∃ h', Good R D (eightFFT C thr (ivBuild n) inv mode n x y W Wm Ws) h h' ∧
      Arr h' x (8 * (n * n)) (eightPure inv mode n v) ∧
      ∀ l, l ∉ Region x (8 * (n * n)) → l ∉ Region y (8 * (n * n)) → h' l = h l := by
  have h2 : 2 ∣ n * n := by rw [hn]; exact Dvd.dvd.mul_right (dvd_pow_self 2 (by omega)) _
  obtain ⟨h1, g1, a1, f1⟩ := eightPre_good (R := R) (D := D) (inv := inv) (mode := mode) h2 hax hay hxy hW hWy hRx hRW hDy
  have hy1 : EightHyp C n k x y Wm Ws h1 :=
    { hn := hn, hk := hk, hle := hle, hay := hay.of_eq g1.alloc, hax := hax.alloc.of_eq g1.alloc,
      hxy := hxy, hWm := hWm.frame fun _ _ => f1 _ (region_out hWmy), hWmx := hWmx, hWmy := hWmy,
      hWs := hWs.frame fun _ _ => f1 _ (region_out hWsy), hWsx := hWsx, hWsy := hWsy }
  unfold eightFFT
  simp only
  split
  · obtain ⟨h2', g2, a2, f2⟩ := eightMid_serial (R := R) (D := D) (inv := inv) hy1 a1 hRy hRx hRWm hRWs hDy hDx
    obtain ⟨h3, g3, a3, f3⟩ := eightTransp_good (R := R) (D := D) (!decide (8 * (n * n) < thr.eight1))
      h2 a2 (hy1.hax.of_eq g2.alloc) hxy hRy hDx
    refine ⟨h3, (g1.loop _).append (g2.append g3), a3, ?_⟩
    intro l hl hl'
    rw [f3 l hl, f2 l hl' hl, f1 l hl']
  · obtain ⟨h2', g2, a2, f2⟩ := eightMid_par (R := R) (D := D) (inv := inv) hy1 a1 hRy hRx hRWm hRWs hDy hDx
    obtain ⟨h3, g3, a3, f3⟩ := eightTransp_good (R := R) (D := D) true
      h2 a2 (hy1.hax.of_eq g2.alloc) hxy hRy hDx
    refine ⟨h3, ?_, a3, ?_⟩
    · rw [Items.region_append (Items.barriered_loop (by decide) _),
        Items.region_append (Items.barriered_loop (by decide) _)]
      simp only [Items.region_loop]
      exact (g1.loop _).append ((g2.loop _).append g3)
    · intro l hl hl'
      rw [f3 l hl, f2 l hl' hl, f1 l hl']

end

end OTFFT
