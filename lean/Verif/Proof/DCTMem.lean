/-
`DCT0`: the table and the transforms as functions on arrays, any arithmetic.
-/
import Verif.Proof.RFFTObj

namespace OTFFT

variable {F C : Type} [DArith F] [CArith F C]

/-! ### table -/

/-- the assignments of one iteration of the table loop, as index and value -/
def dctIts (C : Type) [CArith F C] (N p : Nat) : List (Nat × C) :=
  [(p, CArith.cmk (fcos (fmul (fofNat p) (fdiv fpi (fofNat (2 * N)) : F))) (fsin (fmul (fofNat p) (fdiv fpi (fofNat (2 * N)) : F)))),
   (N - p, CArith.cmk (fsin (fmul (fofNat p) (fdiv fpi (fofNat (2 * N)) : F))) (fcos (fmul (fofNat p) (fdiv fpi (fofNat (2 * N)) : F))))]

def dctTab (C : Type) [CArith F C] (N t : Nat) : C := tabOf (ofD C (fofNat 0)) (N / 2 + 1) (dctIts C N) t

theorem dctIts_facts (N : Nat) :
    (∀ i < N / 2 + 1, ∀ tv ∈ dctIts C N i, tv.1 < N + 1) ∧
    (∀ i < N / 2 + 1, ∀ j < N / 2 + 1, i ≠ j → ∀ tv ∈ dctIts C N i, ∀ tv' ∈ dctIts C N j, tv.1 ≠ tv'.1) ∧
    (∀ t < N + 1, ∃ i < N / 2 + 1, ∃ tv ∈ dctIts C N i, tv.1 = t) := by
  refine ⟨?_, ?_, ?_⟩
  · intro i hi tv h
    simp only [dctIts, List.mem_cons, List.not_mem_nil, or_false] at h
    rcases h with rfl | rfl <;> simp only <;> omega
  · intro i hi j hj hij tv h tv' h'
    simp only [dctIts, List.mem_cons, List.not_mem_nil, or_false] at h h'
    rcases h with rfl | rfl <;> rcases h' with rfl | rfl <;> simp only <;> omega
  · intro t ht
    rcases Nat.lt_or_ge t (N / 2 + 1) with h | h
    · exact ⟨t, h, _, .head _, rfl⟩
    · exact ⟨N - t, by omega, _, .tail _ (.head _), by simp only; omega⟩

theorem dctTable_good {R D : Set Loc} {thr : Thr} {N : Nat} {V : Ptr} {h : Heap C} (hal : Alloc h V (N + 1))
    (hD : Region V (N + 1) ⊆ D) :
    ∃ h', Good R D (dctTable C thr N V) h h' ∧ (2 ≤ N → Arr h' V (N + 1) (dctTab C N)) ∧
      ∀ l, l ∉ Region V (N + 1) → h' l = h l := by
  unfold dctTable
  by_cases hN : N < 2
  · rw [if_pos hN]
    exact ⟨h, .nil, by omega, fun _ _ => rfl⟩
  rw [if_neg hN]
  obtain ⟨f1, f2, f3⟩ := dctIts_facts (C := C) N
  obtain ⟨h', g, a, b, _⟩ := table_loop (R := R) (D := D) (ofD C (fofNat 0 : F)) (!decide (N < thr.apiW)) (N / 2 + 1) (N + 1) V (dctIts C N) f1 f2 hal hD
  exact ⟨h', g, fun _ t ht => a t (f3 t ht), b⟩

/-! ### the loops of the transforms -/

/-- reordering before the forward transform -/
def dctGath (m : Nat) (v : Nat → C) (q : Nat) : C := if q < m then v (2 * q) else v (2 * (2 * m - 1 - q) + 1)

/-- reordering after the inverse transform -/
def dctScat (m : Nat) (Y : Nat → C) (j : Nat) : C := if j % 2 = 0 then Y (j / 2) else Y (2 * m - 1 - j / 2)

/-- rotation after the forward transform -/
def dctTw (C : Type) [CArith F C] (V Z : Nat → C) (k : Nat) : C :=
  if k % 2 = 0 then ofD C (CArith.re (haddpz (CArith.mulpd (V k) (Z k)) (CArith.mulpd (V (k + 1)) (Z (k + 1)))))
  else ofD C (CArith.im (haddpz (CArith.mulpd (V (k - 1)) (Z (k - 1))) (CArith.mulpd (V k) (Z k))))

/-- rotation before the inverse transform -/
def dctPreV (C : Type) [CArith F C] (N : Nat) (V v : Nat → C) (k : Nat) : C :=
  if k = 0 then ofD C (CArith.re (v 0))
  else CArith.cmul (V k) (CArith.cmk (CArith.re (v k)) (fneg (CArith.re (v (N - k)))))

section loops
variable {R D : Set Loc}

theorem dctGather_good {x y : Ptr} {m : Nat} {v : Nat → C} {h : Heap C} (hax : Arr h x (2 * m) v) (hay : Alloc h y (2 * m))
    (hxy : Sep x (2 * m) y (2 * m)) (hR : Region x (2 * m) ⊆ R) (hD : Region y (2 * m) ⊆ D) (par : Bool) :
    ∃ h', Good R D (Code.loop par (tasks1 m fun p => dctGather (2 * m) x y p)) h h' ∧ Arr h' y (2 * m) (dctGath m v) ∧
      ∀ l, l ∉ Region y (2 * m) → h' l = h l := by
  obtain ⟨h', g, a, b⟩ := loop_tr (R := R) (D := D) par m (h := h) (task := fun p => dctGather (2 * m) x y p)
    (fun p => {l | l = (x + (2 * p)).loc ∨ l = (x + (2 * p + 1)).loc})
    (fun p => {l | l = (y + p).loc ∨ l = (y + (2 * m - p - 1)).loc})
    (fun p => (h.set (y + p).loc (v (2 * p))).set (y + (2 * m - p - 1)).loc (v (2 * p + 1)))
    (fun p hp => by
      refine .load (Or.inl rfl) (hax _ (by omega)) (.store (Or.inl rfl) (hay _ (by omega)) (.load (Or.inr rfl) ?_
        (.store (Or.inr rfl) ?_ .ret)))
      · rw [Heap.set_ne]
        · exact hax _ (by omega)
        · intro e; exact hxy.ne (by omega) (by omega) e
      · unfold Heap.set
        split
        · simp
        · exact hay _ (by omega))
    (by
      rintro i hi j hj hij l (rfl | rfl) <;> refine ⟨?_, ?_⟩
      · rintro (e | e) <;> exact hxy.ne (by omega) (by omega) e.symm
      · rintro (e | e) <;> have := Ptr.add_loc_inj e <;> omega
      · rintro (e | e) <;> exact hxy.ne (by omega) (by omega) e.symm
      · rintro (e | e) <;> have := Ptr.add_loc_inj e <;> omega)
    (by rintro i hi l (rfl | rfl) <;> exact hR (mem_region (by omega)))
    (by rintro i hi l (rfl | rfl) <;> exact hD (mem_region (by omega)))
  refine ⟨h', g, fun q hq => ?_, fun l hl => b l ?_⟩
  · unfold dctGath
    split
    · rename_i hqm
      rw [a q hqm _ (Or.inl rfl), Heap.set_ne _ _ (Ptr.add_ne (by omega)), Heap.set_same]
    · rename_i hqm
      have e : q = 2 * m - (2 * m - 1 - q) - 1 := by omega
      rw [a (2 * m - 1 - q) (by omega) _ (Or.inr (by rw [← e])), ← e, Heap.set_same]
  · rintro i hi (rfl | rfl) <;> exact hl (mem_region (by omega))

theorem dctScatter_good {x y : Ptr} {m : Nat} {Y : Nat → C} {h : Heap C} (hay : Arr h y (2 * m) Y) (hax : Alloc h x (2 * m))
    (hxy : Sep x (2 * m) y (2 * m)) (hR : Region y (2 * m) ⊆ R) (hD : Region x (2 * m) ⊆ D) (par : Bool) :
    ∃ h', Good R D (Code.loop par (tasks1 m fun p => dctScatter (2 * m) x y p)) h h' ∧ Arr h' x (2 * m) (dctScat m Y) ∧
      ∀ l, l ∉ Region x (2 * m) → h' l = h l := by
  obtain ⟨h', g, a, b⟩ := loop_tr (R := R) (D := D) par m (h := h) (task := fun p => dctScatter (2 * m) x y p)
    (fun p => {l | l = (y + p).loc ∨ l = (y + (2 * m - p - 1)).loc})
    (fun p => {l | l = (x + (2 * p)).loc ∨ l = (x + (2 * p + 1)).loc})
    (fun p => (h.set (x + 2 * p).loc (Y p)).set (x + (2 * p + 1)).loc (Y (2 * m - p - 1)))
    (fun p hp => by
      refine .load (Or.inl rfl) (hay _ (by omega)) (.store (Or.inl rfl) (hax _ (by omega)) (.load (Or.inr rfl) ?_
        (.store (Or.inr rfl) ?_ .ret)))
      · rw [Heap.set_ne]
        · exact hay _ (by omega)
        · intro e; exact hxy.ne (by omega) (by omega) e.symm
      · unfold Heap.set
        split
        · simp
        · exact hax _ (by omega))
    (by
      rintro i hi j hj hij l (rfl | rfl) <;> refine ⟨?_, ?_⟩
      · rintro (e | e) <;> exact hxy.ne (by omega) (by omega) e
      · rintro (e | e) <;> have := Ptr.add_loc_inj e <;> omega
      · rintro (e | e) <;> exact hxy.ne (by omega) (by omega) e
      · rintro (e | e) <;> have := Ptr.add_loc_inj e <;> omega)
    (by rintro i hi l (rfl | rfl) <;> exact hR (mem_region (by omega)))
    (by rintro i hi l (rfl | rfl) <;> exact hD (mem_region (by omega)))
  refine ⟨h', g, fun q hq => ?_, fun l hl => b l ?_⟩
  · unfold dctScat
    split
    · rename_i hqm
      have e : q = 2 * (q / 2) := by omega
      rw [a (q / 2) (by omega) _ (Or.inl (by rw [← e])), ← e, Heap.set_ne _ _ (Ptr.add_ne (by omega)), Heap.set_same]
    · rename_i hqm
      have e : q = 2 * (q / 2) + 1 := by omega
      rw [a (q / 2) (by omega) _ (Or.inr (by rw [← e])), ← e, Heap.set_same, show 2 * m - q / 2 - 1 = 2 * m - 1 - q / 2 by omega]
  · rintro i hi (rfl | rfl) <;> exact hl (mem_region (by omega))

theorem dctTwiddle_good {x z V : Ptr} {m : Nat} {u Z : Nat → C} {h : Heap C} (haz : Arr h z (2 * m) Z)
    (haV : Arr h V (2 * m + 1) u) (hax : Alloc h x (2 * m)) (hxz : Sep x (2 * m) z (2 * m)) (hxV : x.buf ≠ V.buf)
    (hRz : Region z (2 * m) ⊆ R) (hRV : Region V (2 * m + 1) ⊆ R) (hD : Region x (2 * m) ⊆ D) (par : Bool) :
    ∃ h', Good R D (Code.loop par (tasks1 (cnt (2 * m) 2) fun k => dctTwiddle C x z V (2 * k))) h h' ∧
      Arr h' x (2 * m) (dctTw C u Z) ∧ ∀ l, l ∉ Region x (2 * m) → h' l = h l := by
  have hc : cnt (2 * m) 2 = m := by unfold cnt; omega
  rw [hc]
  obtain ⟨h', g, a, b⟩ := loop_tr (R := R) (D := D) par m (h := h) (task := fun k => dctTwiddle C x z V (2 * k))
    (fun k => {l | l = (V + 2 * k).loc ∨ l = (z + 2 * k).loc ∨ l = (V + (2 * k + 1)).loc ∨ l = (z + (2 * k + 1)).loc})
    (fun k => {l | l = (x + 2 * k).loc ∨ l = (x + (2 * k + 1)).loc})
    (fun k => (h.set (x + 2 * k).loc (ofD C (CArith.re (haddpz (CArith.mulpd (u (2 * k)) (Z (2 * k)))
      (CArith.mulpd (u (2 * k + 1)) (Z (2 * k + 1))))))).set (x + (2 * k + 1)).loc
      (ofD C (CArith.im (haddpz (CArith.mulpd (u (2 * k)) (Z (2 * k))) (CArith.mulpd (u (2 * k + 1)) (Z (2 * k + 1)))))))
    (fun k hk => by
      refine .load (Or.inl rfl) (haV _ (by omega)) (.load (Or.inr (Or.inl rfl)) (haz _ (by omega))
        (.load (Or.inr (Or.inr (Or.inl rfl))) (haV _ (by omega)) (.load (Or.inr (Or.inr (Or.inr rfl))) (haz _ (by omega))
          (.store (Or.inl rfl) (hax _ (by omega)) (.store (Or.inr rfl) ?_ .ret)))))
      unfold Heap.set
      split
      · simp
      · exact hax _ (by omega))
    (by
      rintro i hi j hj hij l (rfl | rfl) <;> refine ⟨?_, ?_⟩
      · rintro (e | e | e | e) <;> first | exact hxV (congrArg Prod.fst e) | exact hxz.ne (by omega) (by omega) e
      · rintro (e | e) <;> have := Ptr.add_loc_inj e <;> omega
      · rintro (e | e | e | e) <;> first | exact hxV (congrArg Prod.fst e) | exact hxz.ne (by omega) (by omega) e
      · rintro (e | e) <;> have := Ptr.add_loc_inj e <;> omega)
    (by
      rintro i hi l (rfl | rfl | rfl | rfl)
      · exact hRV (mem_region (by omega))
      · exact hRz (mem_region (by omega))
      · exact hRV (mem_region (by omega))
      · exact hRz (mem_region (by omega)))
    (by rintro i hi l (rfl | rfl) <;> exact hD (mem_region (by omega)))
  refine ⟨h', g, fun q hq => ?_, fun l hl => b l ?_⟩
  · unfold dctTw
    split
    · rename_i hqm
      have e : q = 2 * (q / 2) := by omega
      rw [a (q / 2) (by omega) _ (Or.inl (by rw [← e])), ← e, Heap.set_ne _ _ (Ptr.add_ne (by omega)), Heap.set_same]
    · rename_i hqm
      have e : q = 2 * (q / 2) + 1 := by omega
      have e2 : q - 1 = 2 * (q / 2) := by omega
      rw [a (q / 2) (by omega) _ (Or.inr (by rw [← e])), ← e, Heap.set_same, e2]
  · rintro i hi (rfl | rfl) <;> exact hl (mem_region (by omega))

theorem dctPre_good {x z V : Ptr} {N : Nat} {u v : Nat → C} {h : Heap C} (hN : 1 ≤ N) (hax : Arr h x N v)
    (haV : Arr h V (N + 1) u) (haz : Alloc h z N) (hxz : Sep x N z N) (hzV : z.buf ≠ V.buf)
    (hRx : Region x N ⊆ R) (hRV : Region V (N + 1) ⊆ R) (hD : Region z N ⊆ D) (par : Bool) :
    ∃ h', Good R D ([[.load x.loc fun a => .store z.loc (ofD C (CArith.re a)) (.ret ())]] ++
        Code.loop par (tasks1 (N - 1) fun k => dctPre C N x z V (k + 1))) h h' ∧
      Arr h' z N (dctPreV C N u v) ∧ ∀ l, l ∉ Region z N → h' l = h l := by
  have g0 : Good R D [[.load x.loc fun a => .store z.loc (ofD C (CArith.re a)) (.ret ())]] h
      (h.set (z + 0).loc (ofD C (CArith.re (v 0)))) :=
    Good.single (.load (hRx (mem_region (i := 0) (by omega))) (hax 0 (by omega)) (.store (hD (mem_region (i := 0) (by omega)))
      (haz 0 (by omega)) .ret))
  set h1 := h.set (z + 0).loc (ofD C (CArith.re (v 0))) with hh1
  have hx1 : Arr h1 x N v := fun i hi => by
    rw [hh1, Heap.set_ne _ _ (fun e => hxz.ne (by omega) (by omega) e)]; exact hax i hi
  have hV1 : Arr h1 V (N + 1) u := fun i hi => by
    rw [hh1, Heap.set_ne _ _ (fun e => hzV (congrArg Prod.fst e).symm)]; exact haV i hi
  have hz1 : Alloc h1 z N := fun i hi => g0.alloc _ (haz i hi)
  obtain ⟨h', g, a, b⟩ := loop_tr (R := R) (D := D) par (N - 1) (h := h1) (task := fun k => dctPre C N x z V (k + 1))
    (fun k => {l | l = (V + (k + 1)).loc ∨ l = (x + (k + 1)).loc ∨ l = (x + (N - (k + 1))).loc})
    (fun k => {(z + (k + 1)).loc})
    (fun k => h1.set (z + (k + 1)).loc (dctPreV C N u v (k + 1)))
    (fun k hk => by
      unfold dctPreV
      rw [if_neg (by omega)]
      exact .load (Or.inl rfl) (hV1 _ (by omega)) (.load (Or.inr (Or.inl rfl)) (hx1 _ (by omega))
        (.load (Or.inr (Or.inr rfl)) (hx1 _ (by omega)) (.store rfl (hz1 _ (by omega)) .ret))))
    (by
      rintro i hi j hj hij l rfl
      refine ⟨?_, ?_⟩
      · rintro (e | e | e)
        · exact hzV (congrArg Prod.fst e)
        · exact hxz.ne (by omega) (by omega) e.symm
        · exact hxz.ne (by omega) (by omega) e.symm
      · intro e; have := Ptr.add_loc_inj e; omega)
    (by
      rintro i hi l (rfl | rfl | rfl)
      · exact hRV (mem_region (by omega))
      · exact hRx (mem_region (by omega))
      · exact hRx (mem_region (by omega)))
    (by rintro i hi l rfl; exact hD (mem_region (by omega)))
  refine ⟨h', g0.append g, fun q hq => ?_, fun l hl => ?_⟩
  · rcases Nat.eq_zero_or_pos q with rfl | hq0
    · rw [b _ (fun i hi e => by have := Ptr.add_loc_inj e; omega), hh1, Heap.set_same, dctPreV, if_pos rfl]
    · obtain ⟨q, rfl⟩ : ∃ p, q = p + 1 := ⟨q - 1, by omega⟩
      rw [a q (by omega) _ rfl, Heap.set_same]
  · rw [b l (fun i hi e => hl (e ▸ mem_region (by omega))), hh1, Heap.set_ne]
    rintro rfl
    exact hl (mem_region (by omega))

end loops

end OTFFT
