/-
`RFFT` of an odd length `2m+1` (only an `assert`, absent from release builds, rejects it): what the
transforms do to memory, any arithmetic.
-/
import Verif.Proof.RFFTObj

noncomputable section

namespace OTFFT

variable {F C : Type} [DArith F] [CArith F C]

/-- entries `1 ≤ t < m` of the output -/
def oddMid (mode : ScaleMode) (m : Nat) (u Z : Nat → C) (t : Nat) : C :=
  if 2 * t < m then
    rsc mode (2 * m + 1) (subpz (Z t) (mulpz (u t) (subpz (Z t) (cnjpz (Z (m - t))))))
  else
    rsc mode (2 * m + 1) (cnjpz (addpz (cnjpz (Z t))
      (mulpz (u (m - t)) (subpz (Z (m - t)) (cnjpz (Z t))))))

/-- output of the forward transform of length `2m+1`; entry `m+1` is a left-over of the half-length transform -/
def oddPostOut (C : Type) [CArith F C] (mode : ScaleMode) (m : Nat) (u Z : Nat → C) (t : Nat) : C :=
  if t = 0 then ofD C (rsc0 F mode (2 * m + 1) (fadd (CArith.re (Z 0)) (CArith.im (Z 0))))
  else if t < m then oddMid mode m u Z t
  else if t = m then ofD C (rsc0 F mode (2 * m + 1) (fsub (CArith.re (Z 0)) (CArith.im (Z 0))))
  else if t = m + 1 then Z 1
  else cnjpz (oddMid mode m u Z (2 * m + 1 - t))

def oddFwdOut (C : Type) [CArith F C] (thr : Thr) (mode : ScaleMode) (m : Nat) (v : Nat → C) : Nat → C :=
  oddPostOut C mode m (rfftTab C (2 * m + 1)) (fftOut C thr false .scale_1 m (rfftZin C v))

section fwd
variable {R D : Set Loc}

theorem rfftPost_odd {y z U : Ptr} {mode : ScaleMode} {m : Nat} {u Z : Nat → C} {h : Heap C}
    (haz : ∀ i, 1 ≤ i → i < m → h (z + i).loc = some (some (Z i))) (haU : Arr h U (m + 1) u)
    (hay : Alloc h y m) (hzy : Sep z m y m) (hUy : U.buf ≠ y.buf)
    (hRz : Region z m ⊆ R) (hRU : Region U (m + 1) ⊆ R) (hDy : Region y m ⊆ D) (par : Bool) :
    ∃ h', Good R D (Code.loop par (tasks1 (m / 2) fun k => rfftPost mode (2 * m + 1) y z U (k + 1))) h h' ∧
      (∀ t, 1 ≤ t → t < m → h' (y + t).loc = some (some (oddMid mode m u Z t))) ∧
      ∀ l, (∀ t, 1 ≤ t → t < m → l ≠ (y + t).loc) → h' l = h l := by
  have e2 : (2 * m + 1) / 2 = m := by omega
  let A : Nat → C := fun k => rsc mode (2 * m + 1) (subpz (Z k) (mulpz (u k) (subpz (Z k) (cnjpz (Z (m - k))))))
  let B : Nat → C := fun k => rsc mode (2 * m + 1) (cnjpz (addpz (cnjpz (Z (m - k)))
    (mulpz (u k) (subpz (Z k) (cnjpz (Z (m - k)))))))
  obtain ⟨h', g, a, b⟩ := loop_tr (R := R) (D := D) par (m / 2) (h := h)
    (task := fun k => rfftPost mode (2 * m + 1) y z U (k + 1))
    (fun k => {l | l = (z + (k + 1)).loc ∨ l = (z + (m - (k + 1))).loc ∨ l = (U + (k + 1)).loc})
    (fun k => {l | l = (y + (k + 1)).loc ∨ l = (y + (m - (k + 1))).loc})
    (fun k => (h.set (y + (k + 1)).loc (A (k + 1))).set (y + (m - (k + 1))).loc (B (k + 1)))
    (fun k hk => by
      unfold rfftPost
      rw [e2]
      refine .load (Or.inl rfl) (haz _ (by omega) (by omega)) (.load (Or.inr (Or.inl rfl)) (haz _ (by omega) (by omega))
        (.load (Or.inr (Or.inr rfl)) (haU _ (by omega)) (.store (Or.inl rfl) (hay _ (by omega))
          (.store (Or.inr rfl) ?_ .ret))))
      unfold Heap.set
      split
      · simp
      · exact hay _ (by omega))
    (by
      rintro i hi j hj hij l (rfl | rfl)
      · refine ⟨?_, ?_⟩
        · rintro (e | e | e)
          · exact hzy.ne (by omega) (by omega) e.symm
          · exact hzy.ne (by omega) (by omega) e.symm
          · exact hUy (congrArg Prod.fst e).symm
        · rintro (e | e)
          · have := Ptr.add_loc_inj e; omega
          · have := Ptr.add_loc_inj e; omega
      · refine ⟨?_, ?_⟩
        · rintro (e | e | e)
          · exact hzy.ne (by omega) (by omega) e.symm
          · exact hzy.ne (by omega) (by omega) e.symm
          · exact hUy (congrArg Prod.fst e).symm
        · rintro (e | e)
          · have := Ptr.add_loc_inj e; omega
          · have := Ptr.add_loc_inj e; omega)
    (by
      rintro i hi l (rfl | rfl | rfl)
      · exact hRz (mem_region (by omega))
      · exact hRz (mem_region (by omega))
      · exact hRU (mem_region (by omega)))
    (by
      rintro i hi l (rfl | rfl)
      · exact hDy (mem_region (by omega))
      · exact hDy (mem_region (by omega)))
  refine ⟨h', g, fun t h1 ht => ?_, fun l hl => b l ?_⟩
  · unfold oddMid
    by_cases hlt : 2 * t < m
    · rw [if_pos hlt]
      have et : t - 1 + 1 = t := by omega
      have := a (t - 1) (by omega) (y + t).loc (Or.inl (by rw [et]))
      rw [this, et, Heap.set_ne _ _ (Ptr.add_ne (by omega)), Heap.set_same]
    · rw [if_neg hlt]
      have et : m - t - 1 + 1 = m - t := by omega
      have et' : m - (m - t) = t := by omega
      have := a (m - t - 1) (by omega) (y + t).loc (Or.inr (by rw [et, et']))
      rw [this, et, et', Heap.set_same]
      show some (some (B (m - t))) = _
      simp only [B, et']
  · rintro i hi (rfl | rfl)
    · exact hl (i + 1) (by omega) (by omega) rfl
    · exact hl (m - (i + 1)) (by omega) (by omega) rfl

theorem rfftMirror_odd {y : Ptr} {m : Nat} {u : Nat → C} {h : Heap C}
    (har : ∀ t, 1 ≤ t → t < m → h (y + t).loc = some (some (u t)))
    (hay : Alloc h y (2 * m + 1)) (hRy : Region y (2 * m + 1) ⊆ R) (hDy : Region y (2 * m + 1) ⊆ D) (par : Bool) :
    ∃ h', Good R D (Code.loop par (tasks1 (m - 1) fun k => rfftMirror (C := C) (2 * m + 1) y (k + 1))) h h' ∧
      (∀ t, m + 1 < t → t < 2 * m + 1 → h' (y + t).loc = some (some (cnjpz (u (2 * m + 1 - t))))) ∧
      ∀ l, (∀ t, m + 1 < t → t < 2 * m + 1 → l ≠ (y + t).loc) → h' l = h l := by
  obtain ⟨h', g, a, b⟩ := loop_tr (R := R) (D := D) par (m - 1) (h := h)
    (task := fun k => rfftMirror (C := C) (2 * m + 1) y (k + 1))
    (fun k => {(y + (k + 1)).loc}) (fun k => {(y + (2 * m + 1 - (k + 1))).loc})
    (fun k => h.set (y + (2 * m + 1 - (k + 1))).loc (cnjpz (u (k + 1))))
    (fun k hk => .load rfl (har _ (by omega) (by omega)) (.store rfl (hay _ (by omega)) .ret))
    (by
      rintro i hi j hj hij l rfl
      refine ⟨fun e => ?_, fun e => ?_⟩
      · have := Ptr.add_loc_inj e; omega
      · have := Ptr.add_loc_inj e; omega)
    (by rintro i hi l rfl; exact hRy (mem_region (by omega)))
    (by rintro i hi l rfl; exact hDy (mem_region (by omega)))
  refine ⟨h', g, fun t h1 h2 => ?_, fun l hl => b l ?_⟩
  · have e1 : 2 * m + 1 - t - 1 + 1 = 2 * m + 1 - t := by omega
    have e2 : 2 * m + 1 - (2 * m + 1 - t) = t := by omega
    have := a (2 * m + 1 - t - 1) (by omega) (y + t).loc (by show _ = _; rw [e1, e2])
    rw [this, e1, e2, Heap.set_same]
  · rintro i hi rfl
    exact hl _ (by omega) (by omega) rfl

/-- Only `x[0..2m)` is read. -/
theorem rfftFwd_odd {thr : Thr} {o : RFFT} {mode : ScaleMode} {m : Nat} {x y : Ptr} {v : Nat → C} {h : Heap C}
    (hN : o.N = 2 * m + 1) (hm : ValidLen m) (hr : o.fft.Ready C thr m h)
    (haU : Arr h o.U (2 * m + 2) (rfftTab C (2 * m + 1)))
    (hax : Arr h x (2 * m) v) (hay : Alloc h y (2 * m + 1)) (hxy : Sep x (2 * m) y (2 * m + 1))
    (hy : y.buf ∉ insert 0 {b | b ∈ o.fft.blocks}) (hUy : o.U.buf ≠ y.buf)
    (hRx : Region x (2 * m) ⊆ R) (hRy : Region y (2 * m + 1) ⊆ R)
    (hRo : ∀ l : Loc, l.1 ∈ insert 0 {b | b ∈ o.fft.blocks} → l ∈ R)
    (hRU : Region o.U (2 * m + 2) ⊆ R) (hDy : Region y (2 * m + 1) ⊆ D) :
    ∃ h', Good R D (o.fwdWith C thr mode x y) h h' ∧ Arr h' y (2 * m + 1) (oddFwdOut C thr mode m v) ∧
      ∀ l, l ∉ Region y (2 * m + 1) → h' l = h l := by
  have h2 := hm.two
  have e2 : (2 * m + 1) / 2 = m := by omega
  have e4 : (2 * m + 1) / 4 = m / 2 := by omega
  unfold RFFT.fwdWith
  simp only [hN]
  rw [if_neg (by omega), if_neg (by omega), e2, e4]
  generalize (!decide (2 * m + 1 < thr.api)) = par
  have hzr : Region (y + m) m ⊆ Region y (2 * m + 1) := Region.sub (by omega)
  have hyr : Region y m ⊆ Region y (2 * m + 1) := Region.sub0 (by omega)
  have hzy : Sep (y + m) m y m := by
    intro i hi j hj e
    have := congrArg Ptr.off e
    simp at this; omega
  -- pack
  obtain ⟨h1, g1, a1, f1⟩ := rfftPack_good (R := R) (D := D) (z := y + m) hax
    (fun i hi => by rw [Ptr.add_add]; exact hay _ (by omega))
    (fun i hi j hj => by rw [Ptr.add_add]; exact hxy i hi _ (by omega)) hRx (hzr.trans hDy) false
  have fr1 : ∀ l, l ∉ Region y (2 * m + 1) → h1 l = h l := fun l hl => f1 l fun h => hl (hzr h)
  -- complex transform
  have fy : ∀ {h1 : Heap C}, (∀ l, l ∉ Region y (2 * m + 1) → h1 l = h l) →
      Same (insert 0 {b | b ∈ o.fft.blocks}) h h1 := by
    intro h1 fr l hl
    refine fr l ?_
    rintro ⟨i, _, rfl⟩
    exact hy hl
  obtain ⟨h2', g2, a2, f2⟩ := FFT0.call_good (R := R) (D := D) (e := .fwd0) hm (hr.frame (fy fr1)) a1
    (y := y) (fun i hi => g1.alloc _ (hay i (by omega))) hzy hy hy (hzr.trans hRy) (hyr.trans hRy) hRo
    (hzr.trans hDy) (hyr.trans hDy)
  set Z := fftOut C thr false .scale_1 m (rfftZin C v) with hZ
  have a2 : Arr h2' (y + m) m Z := a2
  have fr2 : ∀ l, l ∉ Region y (2 * m + 1) → h2' l = h l := fun l hl => by
    rw [f2 l (fun h => hl (hzr h)) (fun h => hl (hyr h)), fr1 l hl]
  have al2 : Alloc h2' y (2 * m + 1) := fun i hi => g2.alloc _ (g1.alloc _ (hay i hi))
  -- the two real entries
  have z0 : h2' (y + m).loc = some (some (Z 0)) := a2 0 (by omega)
  let e0 : C := ofD C (rsc0 F mode (2 * m + 1) (fadd (CArith.re (Z 0)) (CArith.im (Z 0))))
  let e1 : C := ofD C (rsc0 F mode (2 * m + 1) (fsub (CArith.re (Z 0)) (CArith.im (Z 0))))
  have hne : (y + m).loc ≠ (y + 0).loc := Ptr.add_ne (by omega)
  have g3 : Good R D [[rfftEnds C mode (2 * m + 1) y (y + m)]] h2' ((h2'.set (y + 0).loc e0).set (y + m).loc e1) := by
    refine Good.single ?_
    refine .load (hRy (mem_region (by omega))) z0 (.store (hDy (mem_region (i := 0) (by omega))) (al2 0 (by omega)) ?_)
    refine .load (hRy (mem_region (by omega))) ?_ (.store (hDy (mem_region (by omega))) ?_ .ret)
    · show (h2'.set (y + 0).loc _) _ = _
      rw [Heap.set_ne _ _ hne, z0]
    · show (h2'.set (y + 0).loc _) _ ≠ _
      rw [Heap.set_ne _ _ hne]
      exact al2 _ (by omega)
  set h3 := (h2'.set (y + 0).loc e0).set (y + m).loc e1 with hh3
  have y0 : h3 (y + 0).loc = some (some e0) := by
    rw [hh3, Heap.set_ne _ _ hne.symm, Heap.set_same]
  have ym : h3 (y + m).loc = some (some e1) := Heap.set_same _ _ _
  have f3 : ∀ l, l ≠ (y + 0).loc → l ≠ (y + m).loc → h3 l = h2' l := by
    intro l h1 h2
    rw [hh3, Heap.set_ne _ _ h2, Heap.set_ne _ _ h1]
  have fr3 : ∀ l, l ∉ Region y (2 * m + 1) → h3 l = h l := fun l hl => by
    rw [f3 l (fun h => hl (h ▸ mem_region (by omega))) (fun h => hl (h ▸ mem_region (by omega))), fr2 l hl]
  have z3 : ∀ i, 1 ≤ i → i < m → h3 (y + m + i).loc = some (some (Z i)) := fun i h1 hi => by
    rw [f3 _ (by rw [Ptr.add_add]; exact Ptr.add_ne (by omega)) (by rw [Ptr.add_add]; exact Ptr.add_ne (by omega))]
    exact a2 i hi
  -- post
  obtain ⟨h4, g4, a4, f4⟩ := rfftPost_odd (R := R) (D := D) (mode := mode) (y := y) (z := y + m) (U := o.U)
    (u := rfftTab C (2 * m + 1)) (Z := Z) (m := m) (h := h3) z3
    (fun i hi => by rw [fr3 _ (not_region_buf hUy)]; exact haU i (by omega))
    (fun i hi => g3.alloc _ (al2 i (by omega))) hzy hUy (hzr.trans hRy) ((Region.sub0 (by omega)).trans hRU)
    (hyr.trans hDy) par
  have al4 : Alloc h4 y (2 * m + 1) := fun i hi => g4.alloc _ (g3.alloc _ (al2 i hi))
  -- mirror
  obtain ⟨h5, g5, a5, f5⟩ := rfftMirror_odd (R := R) (D := D) a4 al4 hRy hDy par
  refine ⟨h5, (((g1.append g2).append g3).append g4).append g5, fun t ht => ?_, fun l hl => ?_⟩
  · unfold oddFwdOut oddPostOut
    rw [← hZ]
    by_cases t0 : t = 0
    · subst t0
      rw [if_pos rfl, f5 _ (fun s hs _ => Ptr.add_ne (by omega)), f4 _ (fun s hs _ => Ptr.add_ne (by omega)), y0]
    rw [if_neg t0]
    by_cases tm : t < m
    · rw [if_pos tm, f5 _ (fun s hs _ => Ptr.add_ne (by omega))]
      exact a4 t (by omega) tm
    rw [if_neg tm]
    by_cases tm' : t = m
    · subst tm'
      rw [if_pos rfl, f5 _ (fun s hs _ => Ptr.add_ne (by omega)), f4 _ (fun s hs _ => Ptr.add_ne (by omega)), ym]
    rw [if_neg tm']
    by_cases tm1 : t = m + 1
    · subst tm1
      rw [if_pos rfl, f5 _ (fun s hs _ => Ptr.add_ne (by omega)), f4 _ (fun s hs _ => Ptr.add_ne (by omega)),
        ← Ptr.add_add, z3 1 le_rfl (by omega)]
    rw [if_neg tm1]
    exact a5 t (by omega) ht
  · rw [f5 l (fun s _ hs e => hl (e ▸ mem_region hs)), f4 l (fun s _ hs e => hl (e ▸ mem_region (by omega))), fr3 l hl]

end fwd

/-! ### inverse -/

/-- what the inverse transform feeds to the half-length transform -/
def oddPreOut (mode : ScaleMode) (m : Nat) (u v : Nat → C) (k : Nat) : C :=
  rscInv mode (2 * m + 1) (cnjpz (subpz (cnjpz (v k)) (mulpz (u k) (subpz (cnjpz (v k)) (v (m - k))))))

def oddInvOut (C : Type) [CArith F C] (thr : Thr) (mode : ScaleMode) (m : Nat) (v : Nat → C) : Nat → C :=
  unpackD C (fftOut C thr true (rfftInvMode mode) m (oddPreOut mode m (rfftTab C (2 * m + 1)) v))

section inv
variable {R D : Set Loc}

theorem rfftPre_odd {x U : Ptr} {mode : ScaleMode} {m : Nat} {u v : Nat → C} {h : Heap C}
    (hax : Arr h x (m + 1) v) (hal : Alloc h x (2 * m)) (haU : Arr h U (m + 1) u) (hUx : U.buf ≠ x.buf)
    (hRx : Region x (2 * m) ⊆ R) (hRU : Region U (m + 1) ⊆ R) (hDx : Region x (2 * m) ⊆ D) (par : Bool) :
    ∃ h', Good R D (Code.loop par (tasks1 m fun k => rfftPre mode (2 * m + 1) x (x + m) U k)) h h' ∧
      Arr h' (x + m) m (oddPreOut mode m u v) ∧ ∀ l, l ∉ Region (x + m) m → h' l = h l := by
  have e2 : (2 * m + 1) / 2 = m := by omega
  obtain ⟨h', g, a, b⟩ := loop_tr (R := R) (D := D) par m (h := h)
    (task := fun k => rfftPre mode (2 * m + 1) x (x + m) U k)
    (fun k => {l | l = (x + k).loc ∨ l = (x + (m - k)).loc ∨ l = (U + k).loc})
    (fun k => {(x + (m + k)).loc})
    (fun k => h.set (x + (m + k)).loc (oddPreOut mode m u v k))
    (fun k hk => by
      unfold rfftPre
      rw [e2, Ptr.add_add]
      exact .load (Or.inl rfl) (hax _ (by omega)) (.load (Or.inr (Or.inl rfl)) (hax _ (by omega))
        (.load (Or.inr (Or.inr rfl)) (haU _ (by omega)) (.store rfl (hal _ (by omega)) .ret))))
    (by
      rintro i hi j hj hij l rfl
      refine ⟨?_, fun e => ?_⟩
      · rintro (e | e | e)
        · have := Ptr.add_loc_inj e; omega
        · have := Ptr.add_loc_inj e; omega
        · exact hUx (congrArg Prod.fst e).symm
      · have := Ptr.add_loc_inj e; omega)
    (by
      rintro i hi l (rfl | rfl | rfl)
      · exact hRx (mem_region (by omega))
      · exact hRx (mem_region (by omega))
      · exact hRU (mem_region (by omega)))
    (by rintro i hi l rfl; exact hDx (mem_region (by omega)))
  refine ⟨h', g, fun i hi => ?_, fun l hl => b l ?_⟩
  · rw [Ptr.add_add, a i hi _ rfl, Heap.set_same]
  · rintro i hi rfl
    rw [← Ptr.add_add] at hl
    exact hl (mem_region hi)

/-- `y[2m]` is not written. -/
theorem rfftInv_odd {thr : Thr} {o : RFFT} {mode : ScaleMode} {m : Nat} {x y : Ptr} {v : Nat → C} {h : Heap C}
    (hN : o.N = 2 * m + 1) (hm : ValidLen m) (hr : o.fft.Ready C thr m h)
    (haU : Arr h o.U (2 * m + 2) (rfftTab C (2 * m + 1)))
    (hax : Arr h x (m + 1) v) (hal : Alloc h x (2 * m)) (hay : Alloc h y (2 * m)) (hxy : Sep x (2 * m) y (2 * m))
    (hx : x.buf ∉ insert 0 {b | b ∈ o.fft.blocks}) (hUx : o.U.buf ≠ x.buf)
    (hRx : Region x (2 * m) ⊆ R)
    (hRo : ∀ l : Loc, l.1 ∈ insert 0 {b | b ∈ o.fft.blocks} → l ∈ R)
    (hRU : Region o.U (2 * m + 2) ⊆ R) (hDx : Region x (2 * m) ⊆ D) (hDy : Region y (2 * m) ⊆ D) :
    ∃ h', Good R D (o.invWith C thr mode x y) h h' ∧ Arr h' y (2 * m) (oddInvOut C thr mode m v) ∧
      ∀ l, l ∉ Region x (2 * m) → l ∉ Region y (2 * m) → h' l = h l := by
  have h2 := hm.two
  have e2 : (2 * m + 1) / 2 = m := by omega
  unfold RFFT.invWith
  simp only [hN]
  rw [if_neg (by omega), if_neg (by omega), e2]
  generalize (!decide (2 * m + 1 < thr.api)) = par
  generalize he : (match mode with | .scale_length => Entry.invn | _ => Entry.inv0) = e
  have hei : e.isInv = true ∧ e.mode = rfftInvMode mode := by
    subst he; cases mode <;> exact ⟨rfl, rfl⟩
  have hzr : Region (x + m) m ⊆ Region x (2 * m) := Region.sub (by omega)
  have hyr : Region x m ⊆ Region x (2 * m) := Region.sub0 (by omega)
  have hzy : Sep (x + m) m x m := by
    intro i hi j hj e
    have := congrArg Ptr.off e
    simp at this; omega
  obtain ⟨h1, g1, a1, f1⟩ := rfftPre_odd (R := R) (D := D) (mode := mode) hax hal
    (U := o.U) (u := rfftTab C (2 * m + 1)) (fun i hi => haU i (by omega)) hUx hRx
    ((Region.sub0 (by omega)).trans hRU) hDx par
  have fr1 : Same (insert 0 {b | b ∈ o.fft.blocks}) h h1 := by
    intro l hl
    refine f1 l ?_
    rintro ⟨i, _, rfl⟩
    exact hx hl
  obtain ⟨h2', g2, a2, f2⟩ := FFT0.call_good (R := R) (D := D)
    (e := e) hm (hr.frame fr1) a1
    (y := x) (fun i hi => g1.alloc _ (hal i (by omega))) hzy hx hx (hzr.trans hRx) (hyr.trans hRx) hRo
    (hzr.trans hDx) (hyr.trans hDx)
  have a2 : Arr h2' (x + m) m (fftOut C thr true (rfftInvMode mode) m (oddPreOut mode m (rfftTab C (2 * m + 1)) v)) := by
    rw [hei.1, hei.2] at a2; exact a2
  obtain ⟨h3, g3, a3, f3⟩ := rfftUnpack_good (R := R) (D := D) (y := y) a2
    (fun i hi => g2.alloc _ (g1.alloc _ (hay i hi)))
    (fun i hi j hj e => by rw [Ptr.add_add] at e; exact hxy _ (by omega) i hi e.symm)
    (hzr.trans hRx) hDy par
  have g := (g1.append g2).append g3
  rw [← he] at g
  refine ⟨h3, by cases mode <;> exact g, a3, fun l hlx hly => ?_⟩
  rw [f3 l hly, f2 l (fun h => hlx (hzr h)) (fun h => hlx (hyr h)), f1 l (fun h => hlx (hzr h))]

end inv

end OTFFT
