/-
`Bluestein`: padded length, table and loops of the transforms, any arithmetic.
-/
import Verif.Proof.RFFTObj
import Verif.Proof.Loop
import Verif.Model.Bluestein

namespace OTFFT

variable {F C : Type} [DArith F] [CArith F C]

/-! ### the padded length -/

theorem blueLoop_spec (N2 k L : Nat) (h : blueLoop N2 k = some L) :
    ∃ j, k ≤ j ∧ L = 2 ^ j ∧ N2 - 1 ≤ L ∧ ∀ i, k ≤ i → i < j → 2 ^ i < N2 - 1 := by
  induction hd : N2 - 2 ^ k using Nat.strong_induction_on generalizing k with
  | _ d ih =>
    rw [blueLoop] at h
    have e2 : 2 ^ (k + 1) = 2 ^ k + 2 ^ k := by rw [Nat.pow_succ]; omega
    have := Nat.two_pow_pos k
    split at h
    · rename_i hlt
      split at h
      · obtain ⟨j, h1, h2, h3, h4⟩ := ih (N2 - 2 ^ (k + 1)) (by omega) (k + 1) h rfl
        refine ⟨j, by omega, h2, h3, fun i hi hj => ?_⟩
        rcases Nat.eq_or_lt_of_le hi with rfl | hi
        · exact hlt
        · exact h4 i hi hj
      · cases h
    · rename_i hge
      have h := Option.some.inj h
      exact ⟨k, le_rfl, h.symm, by omega, fun i h1 h2 => by omega⟩

/-- the loop ends without overflow exactly when `2n - 1 ≤ 2^30` -/
theorem blueLoop_none_iff (N2 k : Nat) (hk : k ≤ 30) : blueLoop N2 k = none ↔ 2 ^ 30 < N2 - 1 := by
  induction hd : 30 - k using Nat.strong_induction_on generalizing k with
  | _ d ih =>
    rw [blueLoop]
    have hle : 2 ^ k ≤ 2 ^ 30 := Nat.pow_le_pow_right (by omega) hk
    split
    · rename_i hlt
      rcases Nat.eq_or_lt_of_le hk with rfl | hk'
      · rw [if_neg (by norm_num)]
        exact ⟨fun _ => hlt, fun _ => rfl⟩
      · rw [if_pos (lt_of_le_of_lt (Nat.pow_le_pow_right (by omega) (by omega : k + 1 ≤ 30)) (by norm_num))]
        exact ih (30 - (k + 1)) (by omega) (k + 1) (by omega) rfl
    · rename_i hge
      constructor
      · intro h; cases h
      · intro h; omega

/-! ### table -/

def blueTab (C : Type) [CArith F C] (N t : Nat) : C :=
  if t = 0 ∨ t = 2 * N then ofD C (fofNat 1 : F)
  else if t = N then ofD C (fneg (fofNat 1 : F))
  else if t < N then CArith.cmk (fcos (fmul (fofNat t) (fdiv fpi (fofNat N) : F))) (fneg (fsin (fmul (fofNat t) (fdiv fpi (fofNat N) : F))))
  else CArith.cmk (fcos (fmul (fofNat (2 * N - t)) (fdiv fpi (fofNat N) : F)))
    (fneg (fneg (fsin (fmul (fofNat (2 * N - t)) (fdiv fpi (fofNat N) : F)))))

section loops
variable {R D : Set Loc}

theorem blueTable_good {thr : Thr} {N : Nat} {W : Ptr} {h : Heap C} (hN : 1 ≤ N) (hal : Alloc h W (2 * N + 1))
    (hD : Region W (2 * N + 1) ⊆ D) :
    ∃ h', Good R D (blueTable C thr N W) h h' ∧ Arr h' W (2 * N + 1) (blueTab C N) ∧
      ∀ l, l ∉ Region W (2 * N + 1) → h' l = h l := by
  unfold blueTable
  have a0 : ∀ {h : Heap C}, Alloc h W (2 * N + 1) → ∀ (i : Nat) (v : C), Alloc (h.set (W + i).loc v) W (2 * N + 1) := by
    intro h ha i v j hj
    unfold Heap.set
    split
    · simp
    · exact ha j hj
  have g0 : Good R D [[storeList [(W + 2 * N, ofD C (fofNat 1 : F)), (W, ofD C (fofNat 1 : F)), (W + N, ofD C (fneg (fofNat 1) : F))]]] h
      (((h.set (W + 2 * N).loc (ofD C (fofNat 1 : F))).set (W + 0).loc (ofD C (fofNat 1 : F))).set (W + N).loc (ofD C (fneg (fofNat 1) : F))) := by
    refine Good.single (Tr.store (hD (mem_region (by omega))) (hal _ (by omega)) (Tr.store (hD (mem_region (i := 0) (by omega)))
      (a0 hal _ _ 0 (by omega)) (Tr.store (hD (mem_region (by omega))) (a0 (a0 hal (2 * N) _) 0 _ N (by omega)) .ret)))
  set h1 := ((h.set (W + 2 * N).loc (ofD C (fofNat 1 : F))).set (W + 0).loc (ofD C (fofNat 1 : F))).set (W + N).loc (ofD C (fneg (fofNat 1) : F)) with hh1
  have hal1 : Alloc h1 W (2 * N + 1) := a0 (a0 (a0 hal _ _) _ _) _ _
  obtain ⟨h', g, a, b⟩ := loop_tr (R := R) (D := D) (!decide (N < thr.apiW)) (N - 1) (h := h1)
    (task := fun p => storeList (blueStores C N W (p + 1)))
    (fun _ => ∅) (fun p => {l | l = (W + (p + 1)).loc ∨ l = (W + (2 * N - (p + 1))).loc})
    (fun p => (h1.set (W + (p + 1)).loc (blueTab C N (p + 1))).set (W + (2 * N - (p + 1))).loc (blueTab C N (2 * N - (p + 1))))
    (fun p hp => by
      have e1 : blueTab C N (p + 1) = CArith.cmk (fcos (fmul (fofNat (p + 1)) (fdiv fpi (fofNat N) : F)))
          (fneg (fsin (fmul (fofNat (p + 1)) (fdiv fpi (fofNat N) : F)))) := by
        unfold blueTab
        rw [if_neg (by omega), if_neg (by omega), if_pos (by omega)]
      have e2 : blueTab C N (2 * N - (p + 1)) = CArith.cmk (fcos (fmul (fofNat (p + 1)) (fdiv fpi (fofNat N) : F)))
          (fneg (fneg (fsin (fmul (fofNat (p + 1)) (fdiv fpi (fofNat N) : F))))) := by
        unfold blueTab
        rw [if_neg (by omega), if_neg (by omega), if_neg (by omega), show 2 * N - (2 * N - (p + 1)) = p + 1 by omega]
      rw [e1, e2]
      exact .store (Or.inl rfl) (hal1 _ (by omega)) (.store (Or.inr rfl) (a0 hal1 _ _ _ (by omega)) .ret))
    (by
      rintro i hi j hj hij l (rfl | rfl) <;> refine ⟨by simp, ?_⟩ <;> rintro (e | e) <;> have := Ptr.add_loc_inj e <;> omega)
    (by simp)
    (by rintro i hi l (rfl | rfl) <;> exact hD (mem_region (by omega)))
  refine ⟨h', g0.append g, fun t ht => ?_, fun l hl => ?_⟩
  · by_cases h0 : t = 0 ∨ t = 2 * N ∨ t = N
    · rw [b]
      · rw [hh1]
        rcases h0 with rfl | rfl | rfl
        · rw [Heap.set_ne _ _ (Ptr.add_ne (by omega)), Heap.set_same, blueTab, if_pos (Or.inl rfl)]
        · rw [Heap.set_ne _ _ (Ptr.add_ne (by omega)), Heap.set_ne _ _ (Ptr.add_ne (by omega)), Heap.set_same, blueTab, if_pos (Or.inr rfl)]
        · rw [Heap.set_same, blueTab, if_neg (by omega), if_pos rfl]
      · rintro i hi (e | e) <;> have := Ptr.add_loc_inj e <;> omega
    · rcases Nat.lt_or_ge t N with htN | htN
      · obtain ⟨p, rfl⟩ : ∃ p, t = p + 1 := ⟨t - 1, by omega⟩
        rw [a p (by omega) _ (Or.inl rfl), Heap.set_ne _ _ (Ptr.add_ne (by omega)), Heap.set_same]
      · have e : t = 2 * N - (2 * N - t - 1 + 1) := by omega
        rw [a (2 * N - t - 1) (by omega) _ (Or.inr (by rw [← e])), ← e, Heap.set_same]
  · rw [b l, hh1, Heap.set_ne, Heap.set_ne, Heap.set_ne]
    · rintro rfl; exact hl (mem_region (by omega))
    · rintro rfl; exact hl (mem_region (by omega))
    · rintro rfl; exact hl (mem_region (by omega))
    · rintro i hi (rfl | rfl) <;> exact hl (mem_region (by omega))

/-! ### the loops of the transforms -/

/-- index of the table entry used for `a[p]` -/
def blueI1 (N : Nat) (inv : Bool) (p : Nat) : Nat := if inv then 2 * N - blueIdx N p else blueIdx N p
/-- index of the table entry used for `b[p]` -/
def blueI2 (N : Nat) (inv : Bool) (p : Nat) : Nat := if inv then blueIdx N p else 2 * N - blueIdx N p

theorem blueIdx_lt {N : Nat} (hN : 1 ≤ N) (p : Nat) : blueIdx N p < 2 * N := Nat.mod_lt _ (by omega)
theorem blueI1_lt {N : Nat} (hN : 1 ≤ N) (inv : Bool) (p : Nat) : blueI1 N inv p < 2 * N + 1 := by
  have := blueIdx_lt hN p
  unfold blueI1; split <;> omega
theorem blueI2_lt {N : Nat} (hN : 1 ≤ N) (inv : Bool) (p : Nat) : blueI2 N inv p < 2 * N + 1 := by
  have := blueIdx_lt hN p
  unfold blueI2; split <;> omega

/-- chirp left in `x` -/
def blueX (C : Type) [CArith F C] (N : Nat) (inv : Bool) (u : Nat → C) (p : Nat) : C :=
  if p = 0 then ofD C (fofNat 1 : F) else u (blueI2 N inv p)

/-- modulated input, zero padded -/
def blueA (C : Type) [CArith F C] (N : Nat) (inv : Bool) (u v : Nat → C) (p : Nat) : C :=
  if p = 0 then v 0 else if p < N then CArith.cmul (v p) (u (blueI1 N inv p)) else ofD C (fofNat 0 : F)

/-- chirp, zero padded and wrapped around -/
def blueB (C : Type) [CArith F C] (N L : Nat) (inv : Bool) (u : Nat → C) (p : Nat) : C :=
  if p < N then blueX C N inv u p else if L - p < N then blueX C N inv u (L - p) else ofD C (fofNat 0 : F)

/-- memory before the Fourier transforms -/
theorem bluePrep_good {N L : Nat} {inv par : Bool} {x a b W : Ptr} {u v : Nat → C} {h : Heap C} (hN : 2 ≤ N) (hN63 : N < 2 ^ 31)
    (hL : 2 * N - 1 ≤ L) (hax : Arr h x N v) (haW : Arr h W (2 * N + 1) u) (haa : Alloc h a L) (hab : Alloc h b L)
    (xa : x.buf ≠ a.buf) (xb : x.buf ≠ b.buf) (xW : x.buf ≠ W.buf) (ab : a.buf ≠ b.buf) (aW : a.buf ≠ W.buf) (bW : b.buf ≠ W.buf)
    (hRx : Region x N ⊆ R) (hRb : Region b L ⊆ R) (hRW : Region W (2 * N + 1) ⊆ R)
    (hDx : Region x N ⊆ D) (hDa : Region a L ⊆ D) (hDb : Region b L ⊆ D) :
    ∃ h', Good R D ([[blueInit0 C x a b]] ++ Code.loop par (tasks1 (L - 1) fun p => blueZero C a b (p + 1)) ++
        Code.loop par (tasks1 (N - 1) fun p => blueChirp N L inv x a b W (p + 1))) h h' ∧
      Arr h' x N (blueX C N inv u) ∧ Arr h' a L (blueA C N inv u v) ∧ Arr h' b L (blueB C N L inv u) ∧
      ∀ l, l ∉ Region x N → l ∉ Region a L → l ∉ Region b L → h' l = h l := by
  have nex : ∀ {p q : Ptr} {i j : Nat}, p.buf ≠ q.buf → (p + i).loc ≠ (q + j).loc := fun hb e => hb (congrArg Prod.fst e)
  -- the first assignments
  set one : C := ofD C (fofNat 1 : F) with hone
  set zero : C := ofD C (fofNat 0 : F) with hzero
  set h1 := ((h.set (a + 0).loc (v 0)).set (x + 0).loc one).set (b + 0).loc one with hh1
  have g0 : Good R D [[blueInit0 C x a b]] h h1 := by
    refine Good.single (Tr.load (hRx (mem_region (i := 0) (by omega))) (hax 0 (by omega)) (Tr.store (hDa (mem_region (i := 0) (by omega)))
      (haa 0 (by omega)) (Tr.store (hDx (mem_region (i := 0) (by omega))) ?_ (Tr.load (hRx (mem_region (i := 0) (by omega)))
        (Heap.set_same _ _ _) (Tr.store (hDb (mem_region (i := 0) (by omega))) ?_ .ret)))))
    · show h.set (a + 0).loc (v 0) (x + 0).loc ≠ none
      rw [Heap.set_ne _ _ (nex xa)]; exact hax.alloc 0 (by omega)
    · show (h.set (a + 0).loc (v 0)).set (x + 0).loc one (b + 0).loc ≠ none
      rw [Heap.set_ne _ _ (nex xb.symm), Heap.set_ne _ _ (nex ab.symm)]
      exact hab 0 (by omega)
  have ga : ∀ i < L, h1 (a + i).loc ≠ none := fun i hi => g0.alloc _ (haa i hi)
  have gb : ∀ i < L, h1 (b + i).loc ≠ none := fun i hi => g0.alloc _ (hab i hi)
  -- zero padding
  obtain ⟨h2, g1, a1, f1⟩ := loop_tr (R := R) (D := D) par (L - 1) (h := h1) (task := fun p => blueZero C a b (p + 1))
    (fun p => {(b + (p + 1)).loc}) (fun p => {l | l = (b + (p + 1)).loc ∨ l = (a + (p + 1)).loc})
    (fun p => (h1.set (b + (p + 1)).loc zero).set (a + (p + 1)).loc zero)
    (fun p hp => by
      refine .store (Or.inl rfl) (gb _ (by omega)) (.load rfl (Heap.set_same _ _ _) (.store (Or.inr rfl) ?_ .ret))
      rw [Heap.set_ne _ _ (nex ab)]
      exact ga _ (by omega))
    (by
      rintro i hi j hj hij l (rfl | rfl) <;> refine ⟨?_, ?_⟩
      · intro e; have := Ptr.add_loc_inj e; omega
      · rintro (e | e)
        · have := Ptr.add_loc_inj e; omega
        · exact nex ab.symm e
      · intro e; exact nex ab e
      · rintro (e | e)
        · exact nex ab e
        · have := Ptr.add_loc_inj e; omega)
    (by rintro i hi l rfl; exact hRb (mem_region (by omega)))
    (by
      rintro i hi l (rfl | rfl)
      · exact hDb (mem_region (by omega))
      · exact hDa (mem_region (by omega)))
  -- state after zero padding
  have x2 : ∀ i < N, h2 (x + i).loc = some (some (if i = 0 then one else v i)) := by
    intro i hi
    rw [f1 _ (by rintro j _ (e | e); exacts [nex xb e, nex xa e]), hh1, Heap.set_ne _ _ (nex xb)]
    split
    · rename_i h0; subst h0; rw [Heap.set_same]
    · rw [Heap.set_ne _ _ (Ptr.add_ne (by omega)), Heap.set_ne _ _ (nex xa), hax i hi]
  have a2 : ∀ i < L, h2 (a + i).loc = some (some (if i = 0 then v 0 else zero)) := by
    intro i hi
    split
    · rename_i h0; subst h0
      rw [f1 _ (by rintro j _ (e | e); exacts [nex ab e, by have := Ptr.add_loc_inj e; omega]), hh1, Heap.set_ne _ _ (nex ab),
        Heap.set_ne _ _ (nex xa.symm), Heap.set_same]
    · obtain ⟨p, rfl⟩ : ∃ p, i = p + 1 := ⟨i - 1, by omega⟩
      rw [a1 p (by omega) _ (Or.inr rfl), Heap.set_same]
  have b2 : ∀ i < L, h2 (b + i).loc = some (some (if i = 0 then one else zero)) := by
    intro i hi
    split
    · rename_i h0; subst h0
      rw [f1 _ (by rintro j _ (e | e); exacts [by have := Ptr.add_loc_inj e; omega, nex ab.symm e]), hh1, Heap.set_same]
    · obtain ⟨p, rfl⟩ : ∃ p, i = p + 1 := ⟨i - 1, by omega⟩
      rw [a1 p (by omega) _ (Or.inl rfl), Heap.set_ne _ _ (nex ab.symm), Heap.set_same]
  have W2 : ∀ i < 2 * N + 1, h2 (W + i).loc = some (some (u i)) := by
    intro i hi
    rw [f1 _ (by rintro j _ (e | e); exacts [nex bW.symm e, nex aW.symm e]), hh1, Heap.set_ne _ _ (nex bW.symm),
      Heap.set_ne _ _ (nex xW.symm), Heap.set_ne _ _ (nex aW.symm), haW i hi]
  -- chirp
  obtain ⟨h3, g2, a3, f3⟩ := loop_tr (R := R) (D := D) par (N - 1) (h := h2)
    (task := fun p => blueChirp N L inv x a b W (p + 1))
    (fun p => {l | l = (x + (p + 1)).loc ∨ l = (b + (p + 1)).loc ∨ l ∈ Region W (2 * N + 1)})
    (fun p => {l | l = (a + (p + 1)).loc ∨ l = (x + (p + 1)).loc ∨ l = (b + (p + 1)).loc ∨ l = (b + (L - (p + 1))).loc})
    (fun p => (((h2.set (a + (p + 1)).loc (CArith.cmul (v (p + 1)) (u (blueI1 N inv (p + 1))))).set (x + (p + 1)).loc
      (u (blueI2 N inv (p + 1)))).set (b + (p + 1)).loc (u (blueI2 N inv (p + 1)))).set (b + (L - (p + 1))).loc (u (blueI2 N inv (p + 1))))
    (fun p hp => by
      unfold blueChirp
      have hpp : (p + 1) * (p + 1) < 2 ^ 63 := by
        calc (p + 1) * (p + 1) ≤ 2 ^ 31 * 2 ^ 31 := Nat.mul_le_mul (by omega) (by omega)
          _ < 2 ^ 63 := by norm_num
      rw [if_neg (by omega)]
      have w1 := blueI1_lt (by omega : 1 ≤ N) inv (p + 1)
      have w2 := blueI2_lt (by omega : 1 ≤ N) inv (p + 1)
      refine .load (Or.inl rfl) ((x2 (p + 1) (by omega)).trans (by rw [if_neg (by omega)])) (.load (Or.inr (Or.inr (mem_region w1)))
        (W2 _ w1) (.store (Or.inl rfl) (by rw [a2 _ (by omega)]; simp) (.load (Or.inr (Or.inr (mem_region w2))) ?_
          (.store (Or.inr (Or.inl rfl)) ?_ (.load (Or.inl rfl) (Heap.set_same _ _ _) (.store (Or.inr (Or.inr (Or.inl rfl))) ?_
            (.load (Or.inr (Or.inl rfl)) (Heap.set_same _ _ _) (.store (Or.inr (Or.inr (Or.inr rfl))) ?_ .ret))))))))
      · rw [Heap.set_ne _ _ (nex aW.symm)]; exact W2 _ w2
      · rw [Heap.set_ne _ _ (nex xa), x2 _ (by omega)]; simp
      · rw [Heap.set_ne _ _ (nex xb.symm), Heap.set_ne _ _ (nex ab.symm), b2 _ (by omega)]; simp
      · rw [Heap.set_ne _ _ (Ptr.add_ne (by omega)), Heap.set_ne _ _ (nex xb.symm), Heap.set_ne _ _ (nex ab.symm), b2 _ (by omega)]; simp)
    (by
      have nW : ∀ {p : Ptr} {i : Nat}, p.buf ≠ W.buf → (p + i).loc ∉ Region W (2 * N + 1) := by
        rintro p i hb ⟨j, _, e⟩; exact hb (congrArg Prod.fst e)
      rintro i hi j hj hij l (rfl | rfl | rfl | rfl) <;> refine ⟨?_, ?_⟩
      · rintro (e | e | e)
        exacts [nex xa.symm e, nex ab e, nW aW e]
      · rintro (e | e | e | e)
        exacts [by have := Ptr.add_loc_inj e; omega, nex xa.symm e, nex ab e, nex ab e]
      · rintro (e | e | e)
        exacts [by have := Ptr.add_loc_inj e; omega, nex xb e, nW xW e]
      · rintro (e | e | e | e)
        exacts [nex xa e, by have := Ptr.add_loc_inj e; omega, nex xb e, nex xb e]
      · rintro (e | e | e)
        exacts [nex xb.symm e, by have := Ptr.add_loc_inj e; omega, nW bW e]
      · rintro (e | e | e | e)
        exacts [nex ab.symm e, nex xb.symm e, by have := Ptr.add_loc_inj e; omega, by have := Ptr.add_loc_inj e; omega]
      · rintro (e | e | e)
        exacts [nex xb.symm e, by have := Ptr.add_loc_inj e; omega, nW bW e]
      · rintro (e | e | e | e)
        exacts [nex ab.symm e, nex xb.symm e, by have := Ptr.add_loc_inj e; omega, by have := Ptr.add_loc_inj e; omega])
    (by
      rintro i hi l (rfl | rfl | h)
      · exact hRx (mem_region (by omega))
      · exact hRb (mem_region (by omega))
      · exact hRW h)
    (by
      rintro i hi l (rfl | rfl | rfl | rfl)
      · exact hDa (mem_region (by omega))
      · exact hDx (mem_region (by omega))
      · exact hDb (mem_region (by omega))
      · exact hDb (mem_region (by omega)))
  refine ⟨h3, (g0.append g1).append g2, ?_, ?_, ?_, ?_⟩
  · intro i hi
    unfold blueX
    split
    · rename_i h0; subst h0
      rw [f3 _ (by
        rintro j hj (e | e | e | e)
        exacts [nex xa e, by have := Ptr.add_loc_inj e; omega, nex xb e, nex xb e]), x2 0 (by omega), if_pos rfl]
    · obtain ⟨p, rfl⟩ : ∃ p, i = p + 1 := ⟨i - 1, by omega⟩
      rw [a3 p (by omega) _ (Or.inr (Or.inl rfl)), Heap.set_ne _ _ (nex xb), Heap.set_ne _ _ (nex xb), Heap.set_same]
  · intro i hi
    unfold blueA
    split
    · rename_i h0; subst h0
      rw [f3 _ (by
        rintro j hj (e | e | e | e)
        exacts [by have := Ptr.add_loc_inj e; omega, nex xa.symm e, nex ab e, nex ab e]), a2 0 (by omega), if_pos rfl]
    · split
      · obtain ⟨p, rfl⟩ : ∃ p, i = p + 1 := ⟨i - 1, by omega⟩
        rw [a3 p (by omega) _ (Or.inl rfl), Heap.set_ne _ _ (nex ab), Heap.set_ne _ _ (nex ab), Heap.set_ne _ _ (nex xa.symm), Heap.set_same]
      · rw [f3 _ (by
          rintro j hj (e | e | e | e)
          exacts [by have := Ptr.add_loc_inj e; omega, nex xa.symm e, nex ab e, nex ab e]), a2 _ hi, if_neg (by omega)]
  · intro i hi
    unfold blueB
    split
    · unfold blueX
      split
      · rename_i h0; subst h0
        rw [f3 _ (by
          rintro j hj (e | e | e | e)
          exacts [nex ab.symm e, nex xb.symm e, by have := Ptr.add_loc_inj e; omega, by have := Ptr.add_loc_inj e; omega]), b2 0 (by omega), if_pos rfl]
      · obtain ⟨p, rfl⟩ : ∃ p, i = p + 1 := ⟨i - 1, by omega⟩
        rw [a3 p (by omega) _ (Or.inr (Or.inr (Or.inl rfl))), Heap.set_ne _ _ (Ptr.add_ne (by omega)), Heap.set_same]
    · split
      · have e : i = L - (L - i - 1 + 1) := by omega
        rw [a3 (L - i - 1) (by omega) _ (Or.inr (Or.inr (Or.inr (by rw [← e])))), ← e, Heap.set_same, show L - i - 1 + 1 = L - i by omega]
        unfold blueX
        rw [if_neg (by omega)]
      · rw [f3 _ (by
          rintro j hj (e | e | e | e)
          exacts [nex ab.symm e, nex xb.symm e, by have := Ptr.add_loc_inj e; omega, by have := Ptr.add_loc_inj e; omega]), b2 _ hi, if_neg (by omega)]
  · intro l hx ha hb
    rw [f3 l, f1 l, hh1, Heap.set_ne, Heap.set_ne, Heap.set_ne]
    · rintro rfl; exact ha (mem_region (by omega))
    · rintro rfl; exact hx (mem_region (by omega))
    · rintro rfl; exact hb (mem_region (by omega))
    · rintro i hi (rfl | rfl)
      · exact hb (mem_region (by omega))
      · exact ha (mem_region (by omega))
    · rintro i hi (rfl | rfl | rfl | rfl)
      · exact ha (mem_region (by omega))
      · exact hx (mem_region (by omega))
      · exact hb (mem_region (by omega))
      · exact hb (mem_region (by omega))

/-- pointwise product -/
theorem blueMul_good {L : Nat} {par : Bool} {a b : Ptr} {A B : Nat → C} {h : Heap C} (haa : Arr h a L A) (hab : Arr h b L B)
    (ab : a.buf ≠ b.buf) (hRa : Region a L ⊆ R) (hRb : Region b L ⊆ R) (hD : Region a L ⊆ D) :
    ∃ h', Good R D (Code.loop par (tasks1 L fun k => blueMul a b k)) h h' ∧ Arr h' a L (fun k => mulpz (A k) (B k)) ∧
      ∀ l, l ∉ Region a L → h' l = h l := by
  obtain ⟨h', g, a1, f⟩ := loop_tr (R := R) (D := D) par L (h := h) (task := fun k => blueMul a b k)
    (fun k => {l | l = (a + k).loc ∨ l = (b + k).loc}) (fun k => {(a + k).loc})
    (fun k => h.set (a + k).loc (mulpz (A k) (B k)))
    (fun k hk => .load (Or.inl rfl) (haa k hk) (.load (Or.inr rfl) (hab k hk) (.store rfl (haa.alloc k hk) .ret)))
    (by
      rintro i hi j hj hij l rfl
      refine ⟨?_, fun e => by have := Ptr.add_loc_inj e; omega⟩
      rintro (e | e)
      · have := Ptr.add_loc_inj e; omega
      · exact ab (congrArg Prod.fst e))
    (by
      rintro i hi l (rfl | rfl)
      · exact hRa (mem_region hi)
      · exact hRb (mem_region hi))
    (by rintro i hi l rfl; exact hD (mem_region hi))
  refine ⟨h', g, fun k hk => ?_, fun l hl => f l ?_⟩
  · rw [a1 k hk _ rfl, Heap.set_same]
  · rintro i hi rfl; exact hl (mem_region hi)

/-- result -/
theorem blueOut_good {N L : Nat} {par : Bool} {mode : ScaleMode} {x a : Ptr} {A X : Nat → C} {h : Heap C} (hNL : N ≤ L)
    (hax : Arr h x N X) (haa : Arr h a L A)
    (xa : x.buf ≠ a.buf) (hRx : Region x N ⊆ R) (hRa : Region a L ⊆ R) (hD : Region x N ⊆ D) :
    ∃ h', Good R D (Code.loop par (tasks1 N fun p => blueOut mode N x a p)) h h' ∧
      Arr h' x N (fun p => bsc mode N (mulpz (A p) (cnjpz (X p)))) ∧
      ∀ l, l ∉ Region x N → h' l = h l := by
  obtain ⟨h', g, a1, f⟩ := loop_tr (R := R) (D := D) par N (h := h) (task := fun p => blueOut mode N x a p)
    (fun k => {l | l = (a + k).loc ∨ l = (x + k).loc}) (fun k => {(x + k).loc})
    (fun k => h.set (x + k).loc (bsc mode N (mulpz (A k) (cnjpz (X k)))))
    (fun k hk => .load (Or.inl rfl) (haa k (by omega)) (.load (Or.inr rfl) (hax k hk) (.store rfl (hax.alloc k hk) .ret)))
    (by
      rintro i hi j hj hij l rfl
      refine ⟨?_, fun e => by have := Ptr.add_loc_inj e; omega⟩
      rintro (e | e)
      · exact xa (congrArg Prod.fst e)
      · have := Ptr.add_loc_inj e; omega)
    (by
      rintro i hi l (rfl | rfl)
      · exact hRa (mem_region (by omega))
      · exact hRx (mem_region hi))
    (by rintro i hi l rfl; exact hD (mem_region hi))
  refine ⟨h', g, fun k hk => ?_, fun l hl => f l ?_⟩
  · rw [a1 k hk _ rfl, Heap.set_same]
  · rintro i hi rfl; exact hl (mem_region hi)

end loops

end OTFFT
