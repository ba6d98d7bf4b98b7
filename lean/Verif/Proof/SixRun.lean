/-
Layer 1 for the six-step algorithm: rows, the complete six-step.
-/
import Verif.Proof.SixMem

noncomputable section

namespace OTFFT

set_option linter.unusedSectionVars false

variable {F C : Type} [DArith F] [CArith F C]

/-- transposition of an `n`×`n` matrix -/
def transpV (n : Nat) (v : Nat → C) : Nat → C := fun t => v (t / n + t % n * n)

/-- all row transforms -/
def sixRowsV (inv : Bool) (n : Nat) (v : Nat → C) : Nat → C := fun t =>
  difRec 8 (bf8 inv) inv (stockhamTw C .serial 8 n inv) .scale_1 n 1 (fun j => v (t / n * n + j)) (t % n)

/-- twiddle pass -/
def sixMultV (inv : Bool) (mode : ScaleMode) (n : Nat) (v : Nat → C) : Nat → C := fun t =>
  sixMultG inv mode n v (t % n) (t / n)

/-- the six-step transform as a function on arrays -/
def sixPure (inv : Bool) (mode : ScaleMode) (n : Nat) (v : Nat → C) : Nat → C :=
  transpV n (sixRowsV inv n (sixMultV inv mode n (sixRowsV inv n (transpV n v))))

/-- table of the row transforms -/
abbrev SubTab (C : Type) [CArith F C] (n : Nat) (h : Heap C) (Ws : Ptr) : Prop := TabOK C (n + 1) 8 n h Ws

/-- its length -/
def subLen (n : Nat) : Nat := stockhamTabLen (n + 1) 8 n

theorem SixTab.frame {n : Nat} {h h' : Heap C} {W : Ptr} (t : SixTab C n h W)
    (e : ∀ i < 4 * sixL n, h' (W + i).loc = h (W + i).loc) : SixTab C n h' W := by
  intro u v huv hv a ha b hb
  have := sixIdx_lt huv hv
  rw [e _ (by omega)]; exact t u v huv hv a ha b hb

theorem region_sub {x : Ptr} {a b N : Nat} (h : a + b ≤ N) : Region (x + a) b ⊆ Region x N := by
  rintro l ⟨i, hi, rfl⟩
  rw [Ptr.add_add]; exact mem_region (by omega)

theorem row_lt {n p : Nat} (hp : p < n) : p * n + n ≤ n * n := by
  calc p * n + n = (p + 1) * n := by ring
    _ ≤ n * n := Nat.mul_le_mul_right _ hp

section
variable {R D : Set Loc} {h : Heap C} {x y W Ws : Ptr} {v : Nat → C} {n k : Nat} {inv : Bool}
  {mode : ScaleMode}

theorem row_disj {x : Ptr} {n i j : Nat} (hij : i ≠ j) {l : Loc} (h1 : l ∈ Region (x + i * n) n) :
    l ∉ Region (x + j * n) n := by
  rw [mem_region'] at *
  rintro ⟨_, h3, h4⟩
  obtain ⟨_, h1, h2⟩ := h1
  simp only [Ptr.add_off] at *
  rcases Nat.lt_or_gt_of_ne hij with h | h
  · have : (i + 1) * n ≤ j * n := Nat.mul_le_mul_right _ h
    rw [Nat.add_mul] at this; omega
  · have : (j + 1) * n ≤ i * n := Nat.mul_le_mul_right _ h
    rw [Nat.add_mul] at this; omega

theorem sixRows_good (hn : n = 2 ^ k) (hk : 1 ≤ k)
    (hax : Arr h x (n * n) v) (hay : Alloc h y (n * n)) (hxy : Sep x (n * n) y (n * n))
    (hWs : SubTab C n h Ws) (hWx : Ws.buf ≠ x.buf) (hWy : Ws.buf ≠ y.buf)
    (hRx : Region x (n * n) ⊆ R) (hRy : Region y (n * n) ⊆ R) (hRW : Region Ws (subLen n) ⊆ R)
    (hDx : Region x (n * n) ⊆ D) (hDy : Region y (n * n) ⊆ D) :
    ∃ h', PhaseGood R D (tasks1 n (sixRow C inv n x y Ws)) h h' ∧
      Arr h' x (n * n) (sixRowsV inv n v) ∧
      ∀ l, l ∉ Region x (n * n) → l ∉ Region y (n * n) → h' l = h l := by
  have hpath : pathOf (n + 1) n = .serial := by simp [pathOf]
  have row : ∀ p < n, ∃ hf, Tr (Region (x + p * n) n ∪ Region (y + p * n) n ∪ Region Ws (subLen n))
      (Region (x + p * n) n ∪ Region (y + p * n) n) (sixRow C inv n x y Ws p) h () hf ∧
      Arr hf (x + p * n) n (difRec 8 (bf8 inv) inv (stockhamTw C .serial 8 n inv) .scale_1 n 1
        (fun j => v (p * n + j))) := by
    intro p hp
    have hle := row_lt hp
    obtain ⟨hf, g, a, _⟩ := difFFT_good (mode := .scale_1) (path := .serial) (L := 4) (inv := inv) (W := Ws)
      (R := Region (x + p * n) n ∪ Region (y + p * n) n ∪ Region Ws (subLen n))
      (D := Region (x + p * n) n ∪ Region (y + p * n) n)
      (T := stockhamTw C .serial 8 n inv)
      (lane_bf8 inv) n k 1 n false (x + p * n) (y + p * n) (fun j => v (p * n + j)) h
      { hr := by omega, hL := by omega, hk := hk, hn := hn, hs := by omega, hpos := by omega, hN := by omega }
      (by
        intro i hi
        rw [Ptr.add_add]; exact hax _ (by omega))
      (by
        intro i hi
        rw [Ptr.add_add]; exact hay _ (by omega))
      (by
        intro i hi j hj
        rw [Ptr.add_add, Ptr.add_add]; exact hxy _ (by omega) _ (by omega))
      (by
        intro hlt
        have := hWs hlt inv
        rwa [hpath] at this)
      hWx hWy (fun l hl => Or.inl (Or.inl hl)) (fun l hl => Or.inl (Or.inr hl))
      (by
        intro hlt l hl
        refine Or.inr ?_
        unfold subLen
        rw [← tabLen_eq hlt, hpath]; exact hl)
      (fun l hl => Or.inl hl) (fun l hl => Or.inr hl)
    refine ⟨hf, ?_, a⟩
    unfold sixRow
    exact g.toProg
  choose! hf htr harr using row
  obtain ⟨h', g, e1, e2⟩ := phase_blocks (h := h) (R := R) (D := D) n _ _ hf htr
    (by
      intro i hi j hj hij l hl
      have hlx : ∀ {a}, a < n → Region (x + a * n) n ⊆ Region x (n * n) := fun ha => region_sub (row_lt ha)
      have hly : ∀ {a}, a < n → Region (y + a * n) n ⊆ Region y (n * n) := fun ha => region_sub (row_lt ha)
      rcases hl with hl | hl
      · rintro (((h1 | h1) | h1) | (h1 | h1))
        · exact row_disj hij hl h1
        · exact hxy.not_mem (hlx hi hl) (hly hj h1)
        · exact region_disj (p := x + i * n) (Ne.symm hWx) hl h1
        · exact row_disj hij hl h1
        · exact hxy.not_mem (hlx hi hl) (hly hj h1)
      · rintro (((h1 | h1) | h1) | (h1 | h1))
        · exact hxy.not_mem (hlx hj h1) (hly hi hl)
        · exact row_disj hij hl h1
        · exact region_disj (p := y + i * n) (Ne.symm hWy) hl h1
        · exact hxy.not_mem (hlx hj h1) (hly hi hl)
        · exact row_disj hij hl h1)
    (by
      rintro i hi l ((hl | hl) | hl)
      · exact hRx (region_sub (row_lt hi) hl)
      · exact hRy (region_sub (row_lt hi) hl)
      · exact hRW hl)
    (by
      rintro i hi l (hl | hl)
      · exact hDx (region_sub (row_lt hi) hl)
      · exact hDy (region_sub (row_lt hi) hl))
  refine ⟨h', g, ?_, ?_⟩
  · intro t ht
    have hpos : 0 < n := by rcases Nat.eq_zero_or_pos n with h | h; simp [h] at ht; exact h
    have hp : t / n < n := Nat.div_lt_of_lt_mul ht
    have e : x + t = x + t / n * n + t % n := by
      rw [Ptr.add_add]; apply Ptr.add_congr; rw [Nat.mul_comm]; exact (Nat.div_add_mod t n).symm
    have hm := Nat.mod_lt t hpos
    rw [e, e1 _ hp _ (Or.inl (mem_region hm)), harr _ hp _ hm]
    rfl
  · intro l hx hy
    refine e2 l ?_
    rintro i hi (hl | hl)
    · exact hx (region_sub (row_lt hi) hl)
    · exact hy (region_sub (row_lt hi) hl)

theorem region_out {p q : Ptr} {m i : Nat} (h : p.buf ≠ q.buf) : (p + i).loc ∉ Region q m := by
  rw [mem_region']; rintro ⟨h1, _⟩; exact h h1

theorem sixTranspose_good (hn : 2 ∣ n) (hle : n ≤ 32768)
    (hax : Arr h x (n * n) v) (hRx : Region x (n * n) ⊆ R) (hDx : Region x (n * n) ⊆ D) :
    ∃ h', PhaseGood R D (tasks1 (sixL n) (sixTranspIter C (ivBuild n) n x)) h h' ∧
      Arr h' x (n * n) (transpV n v) ∧ ∀ l, l ∉ Region x (n * n) → h' l = h l := by
  refine six_phase (W := ⟨x.buf + 1, 0⟩) (len := 0) hn _ (fun c r => v (r + c * n)) ?_ (by simp) hRx
    (by rintro l ⟨i, hi, _⟩; omega) hDx
  intro u w huw hw
  rw [sixTranspIter, ivBuild_at hle huw hw]
  exact sixTransp_tr hn huw hw hax

theorem sixMultiply_good (hn : 2 ∣ n) (hle : n ≤ 32768)
    (hax : Arr h x (n * n) v) (hW : SixTab C n h W) (hWx : W.buf ≠ x.buf)
    (hRx : Region x (n * n) ⊆ R) (hRW : Region W (4 * sixL n) ⊆ R) (hDx : Region x (n * n) ⊆ D) :
    ∃ h', PhaseGood R D (tasks1 (sixL n) (sixMultIter C (ivBuild n) inv mode n x W)) h h' ∧
      Arr h' x (n * n) (sixMultV inv mode n v) ∧ ∀ l, l ∉ Region x (n * n) → h' l = h l := by
  refine six_phase hn _ (sixMultG inv mode n v) ?_ hWx hRx hRW hDx
  intro u w huw hw
  rw [sixMultIter, ivBuild_at hle huw hw]
  exact sixMult_tr hn huw hw hax hW

theorem sixPart_good {kind : LoopKind} (hkind : kind ≠ .ompNowait) (hn : n = 2 ^ k) (hk : 1 ≤ k)
    (hle : n ≤ 32768) (hax : Arr h x (n * n) v) (hay : Alloc h y (n * n))
    (hxy : Sep x (n * n) y (n * n))
    (hW : SixTab C n h W) (hWx : W.buf ≠ x.buf) (hWy : W.buf ≠ y.buf)
    (hWs : SubTab C n h Ws) (hWsx : Ws.buf ≠ x.buf) (hWsy : Ws.buf ≠ y.buf)
    (hRx : Region x (n * n) ⊆ R) (hRy : Region y (n * n) ⊆ R)
    (hRW : Region W (4 * sixL n) ⊆ R) (hRWs : Region Ws (subLen n) ⊆ R)
    (hDx : Region x (n * n) ⊆ D) (hDy : Region y (n * n) ⊆ D) :
    ∃ h', Good R D (Items.region (sixPart C (ivBuild n) kind inv mode n x y W Ws)) h h' ∧
      Arr h' x (n * n) (sixPure inv mode n v) ∧
      ∀ l, l ∉ Region x (n * n) → l ∉ Region y (n * n) → h' l = h l := by
  have h2 : 2 ∣ n := by rw [hn]; exact dvd_pow_self 2 (by omega)
  obtain ⟨h1, g1, a1, f1⟩ := sixTranspose_good (R := R) (D := D) h2 hle hax hRx hDx
  have al1 : Alloc h1 y (n * n) := hay.of_eq g1.alloc
  have t1 : SubTab C n h1 Ws := hWs.frame fun i _ => f1 _ (region_out hWsx)
  obtain ⟨h2', g2, a2, f2⟩ := sixRows_good (R := R) (D := D) (inv := inv) hn hk a1 al1 hxy t1 hWsx hWsy hRx hRy hRWs
    hDx hDy
  have t2 : SixTab C n h2' W := hW.frame fun i _ => by
    rw [f2 _ (region_out hWx) (region_out hWy), f1 _ (region_out hWx)]
  obtain ⟨h3, g3, a3, f3⟩ := sixMultiply_good (R := R) (D := D) (inv := inv) (mode := mode) h2 hle a2 t2 hWx hRx hRW hDx
  have al3 : Alloc h3 y (n * n) := (al1.of_eq g2.alloc).of_eq g3.alloc
  have t3 : SubTab C n h3 Ws := t1.frame fun i _ => by
    rw [f3 _ (region_out hWsx), f2 _ (region_out hWsx) (region_out hWsy)]
  obtain ⟨h4, g4, a4, f4⟩ := sixRows_good (R := R) (D := D) (inv := inv) hn hk a3 al3 hxy t3 hWsx hWsy hRx hRy hRWs
    hDx hDy
  obtain ⟨h5, g5, a5, f5⟩ := sixTranspose_good (R := R) (D := D) h2 hle a4 hRx hDx
  refine ⟨h5, ?_, a5, ?_⟩
  · unfold sixPart
    rw [Items.region_append (Items.barriered_loop hkind _), Items.region_append (Items.barriered_loop hkind _),
      Items.region_append (Items.barriered_loop hkind _), Items.region_append (Items.barriered_loop hkind _)]
    simp only [Items.region_loop]
    exact (g1.loop _).append ((g2.loop _).append ((g3.loop _).append ((g4.loop _).append (g5.loop _))))
  · intro l hl hl'
    rw [f5 l hl, f4 l hl hl', f3 l hl, f2 l hl hl', f1 l hl]

end

end OTFFT
