/-
Odd lengths of `RFFT`, `DCT0`, `DCT`.
-/
import Verif.Proof.Odd
import Verif.Proof.Stuck
import Verif.Proof.Limits

noncomputable section

namespace OTFFT

set_option linter.unusedSectionVars false

variable {F C : Type} [DArith F] [CArith F C] {thr : Thr}

/-! ### `RFFT` -/

/-- how much of the input array a transform of length `2m+1` reads -/
def oddNeed (e : Entry) (m : Nat) : Nat := if e.isInv then m + 1 else 2 * m

/-- how much of the output array a transform of length `2m+1` writes -/
def oddFill (e : Entry) (m : Nat) : Nat := if e.isInv then 2 * m else 2 * m + 1

/-- what it may overwrite -/
def oddDirty (e : Entry) (m : Nat) (x y : Ptr) : Set Loc :=
  if e.isInv then Region x (2 * m) ∪ Region y (2 * m) else Region y (2 * m + 1)

def oddOut (C : Type) [CArith F C] (thr : Thr) (e : Entry) (m : Nat) (v : Nat → C) : Nat → C :=
  if e.isInv then oddInvOut C thr e.mode m v else oddFwdOut C thr e.mode m v

theorem RFFT.call_odd {o : RFFT} {m : Nat} {e : Entry} {x y : Ptr} {v : Nat → C} {h : Heap C}
    (hm : ValidLen m) (hr : o.Ready C thr (2 * m + 1) h)
    (hax : Arr h x (oddNeed e m) v) (hal : Alloc h x (2 * m)) (hay : Alloc h y (oddFill e m))
    (hxy : Sep x (2 * m) y (2 * m + 1))
    (hx0 : x.buf ≠ 0) (hy0 : y.buf ≠ 0) (hx : x.buf ∉ o.blocks) (hy : y.buf ∉ o.blocks) :
    ∃ h', Good (Region x (2 * m) ∪ Region y (2 * m + 1) ∪ {l | l.1 ∈ insert 0 {b | b ∈ o.blocks}}) (oddDirty e m x y)
        (o.call C thr e x y) h h' ∧
      Arr h' y (oddFill e m) (oddOut C thr e m v) ∧ ∀ l, l ∉ oddDirty e m x y → h' l = h l := by
  rw [RFFT.call_eq]
  obtain ⟨b, hw, hU, hT⟩ := hr.weight
  have hbb : b ∈ o.blocks := by simp [RFFT.blocks, hw]
  have h2 := hm.two
  have hfr := hr.fft
  rw [show (2 * m + 1) / 2 = m by omega] at hfr
  have haU : Arr h o.U (2 * m + 2) (rfftTab C (2 * m + 1)) := by rw [hU]; exact hT (by omega)
  have hRU : Region o.U (2 * m + 2) ⊆
      Region x (2 * m) ∪ Region y (2 * m + 1) ∪ {l | l.1 ∈ insert 0 {b | b ∈ o.blocks}} := by
    rintro l ⟨i, _, rfl⟩
    rw [hU]
    exact Or.inr (Or.inr hbb)
  have hRo : ∀ l : Loc, l.1 ∈ insert 0 {b | b ∈ o.fft.blocks} →
      l ∈ Region x (2 * m) ∪ Region y (2 * m + 1) ∪ {l | l.1 ∈ insert 0 {b | b ∈ o.blocks}} := by
    rintro l (h | h)
    · exact Or.inr (Or.inl h)
    · exact Or.inr (Or.inr (List.mem_append_left _ h))
  have notin : ∀ {p : Ptr}, p.buf ≠ 0 → p.buf ∉ o.blocks → p.buf ∉ insert 0 {b | b ∈ o.fft.blocks} := by
    rintro p h0 hb (h | h)
    · exact h0 h
    · exact hb (List.mem_append_left _ h)
  have hUne : ∀ {p : Ptr}, p.buf ∉ o.blocks → o.U.buf ≠ p.buf := by
    rintro p hb e
    rw [hU] at e
    exact hb (e ▸ hbb)
  unfold oddOut
  cases he : e.isInv with
  | true =>
    simp only [oddNeed, oddFill, oddDirty, he, if_true] at hax hay ⊢
    obtain ⟨h', g, a, f⟩ := rfftInv_odd (R := Region x (2 * m) ∪ Region y (2 * m + 1) ∪ {l | l.1 ∈ insert 0 {b | b ∈ o.blocks}})
      (D := Region x (2 * m) ∪ Region y (2 * m)) (mode := e.mode) hr.len hm hfr haU hax hal hay
      (fun i hi j hj => hxy i hi j (by omega)) (notin hx0 hx) (hUne hx)
      (Set.subset_union_left.trans Set.subset_union_left) hRo hRU
      Set.subset_union_left Set.subset_union_right
    exact ⟨h', g, a, fun l hl => f l (fun h => hl (Or.inl h)) (fun h => hl (Or.inr h))⟩
  | false =>
    simp only [oddNeed, oddFill, oddDirty, he, if_false, Bool.false_eq_true] at hax hay ⊢
    exact rfftFwd_odd hr.len hm hfr haU hax hay hxy (notin hy0 hy) (hUne hy)
      (Set.subset_union_left.trans Set.subset_union_left)
      (Set.subset_union_right.trans Set.subset_union_left) hRo hRU (le_refl _)

theorem oddDirty_sub (e : Entry) (m : Nat) (x y : Ptr) :
    oddDirty e m x y ⊆ Region x (2 * m) ∪ Region y (2 * m + 1) := by
  unfold oddDirty
  split
  · exact Set.union_subset_union le_rfl (Region.sub0 (by omega))
  · exact Set.subset_union_right

/-- the same as for even lengths: an unsupported half-length -/
theorem RFFT.call_doomed_odd {o : RFFT} {m : Nat} {e : Entry} {x y : Ptr} {h : Heap C}
    (h1 : 1 ≤ m) (hi : m < 2 ^ 31) (hn : ¬ ValidLen m) (hr : o.Ready C thr (2 * m + 1) h) :
    (o.call C thr e x y).Doomed := by
  rw [RFFT.call_eq]
  have hf := hr.fft
  rw [show (2 * m + 1) / 2 = m by omega] at hf
  cases he : e.isInv with
  | false =>
    simp only [Bool.false_eq_true, if_false]
    unfold RFFT.fwdWith
    simp only [hr.len]
    rw [if_neg (by omega), if_neg (by omega)]
    exact .left (.left (.left (.right (FFT0.call_doomed h1 hi hn hf))))
  | true =>
    simp only [if_true]
    unfold RFFT.invWith
    simp only [hr.len]
    rw [if_neg (by omega), if_neg (by omega)]
    exact .left (.right (FFT0.call_doomed h1 hi hn hf))

theorem DCT0.call_doomed_odd {o : DCT0} {m : Nat} {e : DctEntry} {x y z : Ptr} {h : Heap C}
    (h1 : 1 ≤ m) (hi : m < 2 ^ 31) (hn : ¬ ValidLen m) (hr : o.Ready C thr (2 * m + 1) h) :
    (o.call C thr e x y z).Doomed := by
  rw [DCT0.call_eq]
  cases he : e.isInv with
  | false =>
    simp only [Bool.false_eq_true, if_false]
    unfold DCT0.fwdWith
    simp only [hr.len]
    rw [if_neg (by omega)]
    exact .left (.right (RFFT.call_doomed_odd h1 hi hn hr.rfft))
  | true =>
    simp only [if_true]
    unfold DCT0.invWith
    simp only [hr.len]
    rw [if_neg (by omega)]
    exact .left (.right (RFFT.call_doomed_odd h1 hi hn hr.rfft))

/-! ### the loops of the cosine transform -/

section loops
variable {R D : Set Loc}

/-- `y[m]` is left as it is -/
theorem dctGather_odd {x y : Ptr} {m : Nat} {v : Nat → C} {h : Heap C} (hax : Arr h x (2 * m) v)
    (hay : Alloc h y (2 * m + 1)) (hxy : Sep x (2 * m) y (2 * m + 1)) (hR : Region x (2 * m) ⊆ R)
    (hD : Region y (2 * m + 1) ⊆ D) (par : Bool) :
    ∃ h', Good R D (Code.loop par (tasks1 m fun p => dctGather (2 * m + 1) x y p)) h h' ∧
      h' (y + m).loc = h (y + m).loc ∧ ∀ l, l ∉ Region y (2 * m + 1) → h' l = h l := by
  obtain ⟨h', g, a, b⟩ := loop_tr (R := R) (D := D) par m (h := h) (task := fun p => dctGather (2 * m + 1) x y p)
    (fun p => {l | l = (x + (2 * p)).loc ∨ l = (x + (2 * p + 1)).loc})
    (fun p => {l | l = (y + p).loc ∨ l = (y + (2 * m + 1 - p - 1)).loc})
    (fun p => (h.set (y + p).loc (v (2 * p))).set (y + (2 * m + 1 - p - 1)).loc (v (2 * p + 1)))
    (fun p hp => by
      refine .load (Or.inl rfl) (hax _ (by omega)) (.store (Or.inl rfl) (hay _ (by omega)) (.load (Or.inr rfl) ?_
        (.store (Or.inr rfl) ?_ .ret)))
      · rw [Heap.set_ne]
        · exact hax _ (by omega)
        · intro e; exact hxy.ne (by omega) (by omega) e
      · unfold Heap.set
        split
        · simp
        · exact hay _ (by omega))
    (by
      rintro i hi j hj hij l (rfl | rfl) <;> refine ⟨?_, ?_⟩
      · rintro (e | e) <;> exact hxy.ne (by omega) (by omega) e.symm
      · rintro (e | e) <;> have := Ptr.add_loc_inj e <;> omega
      · rintro (e | e) <;> exact hxy.ne (by omega) (by omega) e.symm
      · rintro (e | e) <;> have := Ptr.add_loc_inj e <;> omega)
    (by rintro i hi l (rfl | rfl) <;> exact hR (mem_region (by omega)))
    (by rintro i hi l (rfl | rfl) <;> exact hD (mem_region (by omega)))
  refine ⟨h', g, b _ ?_, fun l hl => b l ?_⟩
  · rintro i hi (e | e) <;> have := Ptr.add_loc_inj e <;> omega
  · rintro i hi (rfl | rfl) <;> exact hl (mem_region (by omega))

end loops

/-! ### `DCT`: the work area `y` has no values yet -/

/-- after `gather`, the middle cell of the work area has no value, but the real transform reads it -/
theorem DCT0.fwd_stuck {o : DCT0} {m : Nat} {e : Entry} {x y z : Ptr} {v : Nat → C} {h : Heap C} (hm : 1 ≤ m)
    (hi : e.isInv = false) (hr : o.Ready C thr (2 * m + 1) h) (hax : Arr h x (2 * m) v)
    (hay : Alloc h y (2 * m + 1)) (hxy : Sep x (2 * m) y (2 * m + 1)) (hyz : y.buf ≠ z.buf)
    (hun : ∀ u, h (y + m).loc ≠ some (some u)) :
    AlwaysUB ((o.fwdWith C thr e x y z).start h) := by
  unfold DCT0.fwdWith
  simp only [hr.len]
  rw [if_neg (by omega), show (2 * m + 1) / 2 = m by omega]
  obtain ⟨h1, g1, e1, f1⟩ := dctGather_odd (R := Set.univ) (D := Set.univ) hax hay hxy (Set.subset_univ _) (Set.subset_univ _)
    (!decide (2 * m + 1 < thr.api))
  refine AlwaysUB.left (g1.alwaysUB ?_)
  rw [RFFT.call_eq, hi]
  simp only [Bool.false_eq_true, if_false]
  unfold RFFT.fwdWith
  simp only [hr.rfft.len]
  rw [if_neg (by omega), if_neg (by omega), show (2 * m + 1) / 2 = m by omega]
  refine .left (.left (.left (.left (loop_stuck (N := {(y + m).loc}) (M := ∅) (i := m / 2) false ?_ ?_ ?_ (by omega) ?_))))
  · rintro l rfl u
    rw [e1]; exact hun u
  · intro l hl; exact hl.elim
  · intro j hj
    exact .load fun _ => .load fun _ => .store (fun h => hyz (congrArg Prod.fst h).symm) .ret
  · unfold rfftPack
    rcases Nat.even_or_odd' m with ⟨k, hk | hk⟩
    · exact .read (by rw [show 2 * (m / 2) = m by omega]; rfl)
    · exact .load fun _ => .read (by rw [show 2 * (m / 2) + 1 = m by omega]; rfl)

/-- the inverse real transform leaves the last cell of the work area without value, but `scatter` reads it -/
theorem DCT0.inv_stuck {o : DCT0} {m : Nat} {e : Entry} {x y z : Ptr} {v : Nat → C} {h : Heap C} (hm : ValidLen m)
    (hi : e.isInv = true) (hr : o.Ready C thr (2 * m + 1) h) (hax : Arr h x (2 * m + 1) v)
    (hay : Alloc h y (2 * m + 1)) (haz : Alloc h z (2 * m + 1))
    (hyz : y.buf ≠ z.buf) (hxy : x.buf ≠ y.buf) (hxz : x.buf ≠ z.buf)
    (hy0 : y.buf ≠ 0) (hz0 : z.buf ≠ 0) (hy : y.buf ∉ o.blocks) (hz : z.buf ∉ o.blocks)
    (hun : ∀ u, h (y + 2 * m).loc ≠ some (some u)) :
    AlwaysUB ((o.invWith C thr e x y z).start h) := by
  have h2 := hm.two
  obtain ⟨b3, e3, eV, aV⟩ := hr.weight
  have bV : o.V.buf ∈ o.blocks := by rw [eV]; simp [DCT0.blocks, e3, Ptr.base]
  rw [← eV] at aV
  have aV := aV (by omega)
  have hzR : z.buf ∉ o.rfft.blocks := fun h => hz (List.mem_append_left _ h)
  have hyR : y.buf ∉ o.rfft.blocks := fun h => hy (List.mem_append_left _ h)
  have sep : ∀ {p q : Ptr} {a b : Nat}, p.buf ≠ q.buf → Sep p a q b := fun {p q _ _} hb i _ j _ e => hb (by
    have h := congrArg Ptr.buf e
    exact h)
  unfold DCT0.invWith
  simp only [hr.len]
  rw [if_neg (by omega), show (2 * m + 1) / 2 = m by omega]
  obtain ⟨h1, g1, a1, f1⟩ := dctPre_good (R := Set.univ) (D := Set.univ) (by omega) hax aV haz (sep hxz)
    (fun h => hz (h ▸ bV)) (Set.subset_univ _) (Set.subset_univ _) (Set.subset_univ _) (!decide (2 * m + 1 < thr.api))
  have hr1 : o.rfft.Ready C thr (2 * m + 1) h1 := by
    refine hr.rfft.frame fun l hl => f1 l ?_
    rintro ⟨i, _, rfl⟩
    rcases hl with h | h
    · exact hz0 h
    · exact hzR h
  obtain ⟨h2', g2, a2, f2⟩ := RFFT.call_odd (e := e) (x := z) (y := y) hm hr1
    (fun i hi' => a1 i (by unfold oddNeed at hi'; rw [hi] at hi'; simp at hi'; omega))
    (fun i hi => g1.alloc _ (haz i (by omega)))
    (fun i hi' => g1.alloc _ (hay i (by unfold oddFill at hi'; rw [hi] at hi'; simp at hi'; omega)))
    (sep hyz.symm) hz0 hy0 hzR hyR
  refine Good.alwaysUB (g1.append (g2.mono (Set.subset_univ _) (Set.subset_univ _)))
    (loop_stuck (N := {(y + 2 * m).loc}) (M := ∅) (i := 0) _ ?_ ?_ ?_ (by omega) ?_)
  · rintro l rfl u
    rw [f2, f1]
    · exact hun u
    · exact not_region_buf hyz
    · unfold oddDirty
      rw [hi]
      rintro (h | ⟨j, hj, e⟩)
      · exact not_region_buf hyz h
      · have := Ptr.add_loc_inj e; omega
  · intro l hl; exact hl.elim
  · intro j hj
    exact .load fun _ => .store (fun h => hxy (congrArg Prod.fst h)) (.load fun _ => .store (fun h => hxy (congrArg Prod.fst h)) .ret)
  · exact .load fun _ => .store (.read (by rw [show 2 * m + 1 - 0 - 1 = 2 * m by omega]; rfl))

/-- the last loop of the forward transform writes beyond the end of the array -/
theorem DCT0.fwd_overrun {o : DCT0} {m : Nat} {e : Entry} {x y z : Ptr} {v : Nat → C} {h : Heap C} (hm : ValidLen m)
    (hi : e.isInv = false) (hr : o.Ready C thr (2 * m + 1) h) (hax : Arr h x (2 * m) v)
    (hay : Filled h y (2 * m + 1)) (haz : Alloc h z (2 * m + 1))
    (hxy : Sep x (2 * m) y (2 * m + 1)) (hyz : Sep y (2 * m) z (2 * m + 1))
    (hy0 : y.buf ≠ 0) (hz0 : z.buf ≠ 0) (hy : y.buf ∉ o.blocks) (hz : z.buf ∉ o.blocks)
    (hend : h (x + (2 * m + 1)).loc = none) [Inhabited C] :
    AlwaysUB ((o.fwdWith C thr e x y z).start h) := by
  have h2 := hm.two
  have hzR : z.buf ∉ o.rfft.blocks := fun h => hz (List.mem_append_left _ h)
  have hyR : y.buf ∉ o.rfft.blocks := fun h => hy (List.mem_append_left _ h)
  unfold DCT0.fwdWith
  simp only [hr.len]
  rw [if_neg (by omega), show (2 * m + 1) / 2 = m by omega]
  obtain ⟨h1, g1, e1, f1⟩ := dctGather_odd (R := Set.univ) (D := Set.univ) hax hay.alloc' hxy (Set.subset_univ _) (Set.subset_univ _)
    (!decide (2 * m + 1 < thr.api))
  have hr1 : o.rfft.Ready C thr (2 * m + 1) h1 := by
    refine hr.rfft.frame fun l hl => f1 l ?_
    rintro ⟨i, _, rfl⟩
    rcases hl with h | h
    · exact hy0 h
    · exact hyR h
  obtain ⟨Y, aY⟩ := Filled.arr (h := h1) (p := y) (n := 2 * m + 1) fun i hi => g1.init _ (hay i hi)
  obtain ⟨h2', g2, a2, f2⟩ := RFFT.call_odd (e := e) (x := y) (y := z) hm hr1
    (fun i hi' => aY i (by unfold oddNeed at hi'; rw [hi] at hi'; simp at hi'; omega))
    (fun i hi => aY.alloc i (by omega))
    (fun i hi' => g1.alloc _ (haz i (by unfold oddFill at hi'; rw [hi] at hi'; simp at hi'; omega)))
    hyz hy0 hz0 hyR hzR
  have gg := g1.append (g2.mono (Set.subset_univ _) (Set.subset_univ _))
  refine Good.alwaysUB gg (loop_stuck (N := ∅) (M := {(x + (2 * m + 1)).loc}) (i := m) _ ?_ ?_ ?_ (by unfold cnt; omega) ?_)
  · intro l hl; exact hl.elim
  · rintro l rfl
    by_contra hne
    -- cells are not created by running code
    rw [f2, f1] at hne
    · exact hne hend
    · rintro ⟨j, hj, e⟩
      rw [e] at hend
      exact hay.alloc' j hj hend
    · unfold oddDirty
      rw [hi]
      rintro ⟨j, hj, e⟩
      rw [e] at hend
      exact haz j hj hend
  · intro j hj
    exact .load fun _ => .load fun _ => .load fun _ => .load fun _ => .store (fun h => h.elim) (.store (fun h => h.elim) .ret)
  · exact .load fun _ => .load fun _ => .load fun _ => .load fun _ => .store (.write rfl)

end OTFFT
