/-
Layer 1 and 2 for the weight tables of the power-of-two kernels.
-/
import Verif.Model.Tables
import Verif.Proof.StockhamDFT

namespace OTFFT

set_option linter.unusedSectionVars false

variable {F C : Type} [DArith F] [CArith F C]

/-- entry `k+1` at position `p` of the table built by `init_Wt` -/
def wtVal (C : Type) [CArith F C] (N r : Nat) (p : Nat) (k : Fin (r-1)) : C :=
  CArith.expj (fmul (fmul (thetaW F N) (fofNat (k.val + 1))) (fofNat p))

/-- entry `p` of the table built by `init_Wr1` -/
def wr1Val (C : Type) [CArith F C] (N : Nat) (p : Nat) : C :=
  CArith.expj (fmul (thetaW F N) (fofNat p))

/-- A loop of store-only tasks (values fixed in advance). -/
theorem phase_store {R D : Set Loc} {n c : Nat} (wr : Nat → Fin c → Ptr) (v : Nat → Fin c → C)
    {h : Heap C} (hinj : ∀ i < n, ∀ j < n, ∀ k l, wr i k = wr j l → i = j ∧ k = l)
    (hal : ∀ i < n, ∀ k, h (wr i k).loc ≠ none) (hD : ∀ i < n, ∀ k, (wr i k).loc ∈ D) (par : Bool) :
    ∃ h', Good R D (Code.loop par (tasks1 n fun i => storeTask (wr i) (v i))) h h' ∧
      (∀ i < n, ∀ k, h' (wr i k).loc = some (some (v i k))) ∧
      ∀ l, (∀ i < n, ∀ k, l ≠ (wr i k).loc) → h' l = h l := by
  classical
  let S : Set Loc := {l | ∃ i, i < n ∧ ∃ k, (wr i k).loc = l}
  have hp : ∀ l ∈ S, ∃ ik : Nat × Fin c, ik.1 < n ∧ (wr ik.1 ik.2).loc = l := by
    rintro l ⟨i, hi, k, e⟩; exact ⟨(i, k), hi, e⟩
  by_cases hn : n = 0
  · subst hn
    refine ⟨h, ?_, fun i hi => absurd hi (by omega), fun l _ => rfl⟩
    cases par
    · exact .nil
    · refine PhaseGood.loop (ts := []) ?_ true
      exact ⟨fun _ => ∅, fun _ => ∅, fun _ => h, by simp, by simp, by simp, by simp, by simp⟩
  by_cases hc : c = 0
  · subst hc
    have e : ∀ i, storeTask (wr i) (v i) = .ret () := fun i => rfl
    refine ⟨h, ?_, fun i hi k => k.elim0, fun l _ => rfl⟩
    refine PhaseGood.loop ?_ par
    refine ⟨fun _ => ∅, fun _ => ∅, fun _ => h, ?_, by simp, by simp, by simp, by simp⟩
    intro i p hp
    simp only [tasks1, e] at hp
    have := List.mem_of_getElem? hp
    simp at this
    rw [this.2]; exact .ret
  let d : Nat × Fin c := (0, ⟨0, by omega⟩)
  let pick : Loc → Nat × Fin c := fun l => if hl : l ∈ S then (hp l hl).choose else d
  have hpick : ∀ i < n, ∀ k, pick (wr i k).loc = (i, k) := by
    intro i hi k
    have hl : (wr i k).loc ∈ S := ⟨i, hi, k, rfl⟩
    have := (hp _ hl).choose_spec
    have e : pick (wr i k).loc = (hp _ hl).choose := dif_pos hl
    obtain ⟨e1, e2⟩ := hinj _ this.1 i hi _ k (Ptr.loc_inj this.2)
    rw [e]; exact Prod.ext e1 e2
  refine ⟨h.upd S (fun l => v (pick l).1 (pick l).2), ?_, ?_, ?_⟩
  · refine PhaseGood.loop ?_ par
    refine phase_upd (List.range n) List.nodup_range (fun _ => Fin.elim0) (fun _ => Fin.elim0) S _
      (fun l => (pick l).1) (fun _ _ j => j.elim0) (fun _ _ j => j.elim0) ?_ ?_ ?_
      (fun _ _ j => j.elim0) (fun _ _ j => j.elim0) (fun _ _ j => j.elim0) (fun _ _ j => j.elim0) ?_
    · intro i hi k _
      have hi := List.mem_range.1 hi
      exact ⟨⟨i, hi, k, rfl⟩, by rw [hpick i hi], by rw [hpick i hi]⟩
    · rintro x ⟨i, hi, k, rfl⟩
      rw [hpick i hi]
      exact ⟨List.mem_range.2 hi, k, 0, rfl⟩
    · rintro x ⟨i, hi, k, rfl⟩; exact hal i hi k
    · rintro x ⟨i, hi, k, rfl⟩; exact hD i hi k
  · intro i hi k
    rw [Heap.upd_mem h (S := S) (show (wr i k).loc ∈ S from ⟨i, hi, k, rfl⟩), hpick i hi]
  · intro l hl
    refine Heap.upd_not _ ?_
    rintro ⟨i, hi, k, rfl⟩
    exact hl i hi k rfl

theorem initWr1_good {R D : Set Loc} {thr : Thr} {r N : Nat} {W : Ptr} {h : Heap C}
    (hal : Alloc h W (N / r)) (hD : Region W (N / r) ⊆ D) :
    ∃ h', Good R D (initWr1 C thr r N W) h h' ∧
      (r ≤ N → Arr h' W (N / r) (wr1Val C N)) ∧ ∀ l, l ∉ Region W (N / r) → h' l = h l := by
  unfold initWr1
  split
  · rename_i hlt
    exact ⟨h, .nil, fun h => by omega, fun _ _ => rfl⟩
  · obtain ⟨h', g, hv, hf⟩ := phase_store (R := R) (D := D) (h := h) (n := N / r) (c := 1)
      (fun p _ => W + p) (fun p _ => wr1Val C N p)
      (fun i _ j _ k l e => ⟨Ptr.add_inj e, Subsingleton.elim _ _⟩)
      (fun i hi k => hal i hi) (fun i hi k => hD (mem_region hi)) (!decide (N < thr.w))
    refine ⟨h', g, fun _ p hp => hv p hp 0, fun l hl => hf l ?_⟩
    rintro p hp k rfl
    exact hl (mem_region hp)

theorem initWt_good {R D : Set Loc} {thr : Thr} {r N : Nat} {W : Ptr} {h : Heap C}
    (hr : 0 < r) (hdvd : r ∣ N)
    (hal : Alloc h W (2 * N)) (hD : Region W (2 * N) ⊆ D) :
    ∃ h', Good R D (initWt C thr r N W) h h' ∧
      (r ≤ N → ∀ p < N / r, ∀ k : Fin (r-1),
        h' (W + (r * p + N + (k.val+1))).loc = some (some (wtVal C N r p k)) ∧
        h' (W + (p + k.val * (N/r))).loc = some (some (wtVal C N r p k))) ∧
      ∀ l, l ∉ Region W (2 * N) → h' l = h l := by
  unfold initWt
  split
  · exact ⟨h, .nil, fun h => by omega, fun _ _ => rfl⟩
  obtain ⟨m, rfl⟩ := hdvd
  have hm : r * m / r = m := Nat.mul_div_cancel_left _ hr
  have lo : ∀ {p i : Nat}, p < m → i < r - 1 → p + i * m < r * m := by
    intro p i hp hi
    calc p + i * m < m + i * m := by omega
      _ = (i + 1) * m := by ring
      _ ≤ r * m := Nat.mul_le_mul_right _ (by omega)
  have hi' : ∀ {p i : Nat}, p < m → i < r - 1 → r * p + (i + 1) < r * m := by
    intro p i hp hi
    have : r * (p + 1) ≤ r * m := Nat.mul_le_mul_left _ hp
    rw [Nat.mul_add] at this; omega
  have hb : ∀ (i : Fin (2 * (r-1))), i.val / 2 < r - 1 := fun i => by omega
  have hbound : ∀ p < m, ∀ i : Fin (2 * (r-1)), ∃ t, t < 2 * (r * m) ∧
      (if i.val % 2 = 0 then W + (r * m + r * p + (i.val / 2 + 1)) else W + (p + i.val / 2 * m)) =
        W + t := by
    intro p hp i
    split
    · exact ⟨_, by have := hi' hp (hb i); omega, rfl⟩
    · exact ⟨_, by have := lo hp (hb i); omega, rfl⟩
  rw [hm]
  obtain ⟨h', g, hv, hf⟩ := phase_store (R := R) (D := D) (h := h) (n := m) (c := 2 * (r - 1))
      (fun p i => if i.val % 2 = 0 then W + (r * m + r * p + (i.val / 2 + 1))
        else W + (p + i.val / 2 * m))
      (fun p i => CArith.expj (fmul (fmul (thetaW F (r * m)) (fofNat (i.val / 2 + 1))) (fofNat p)))
      (by
        intro p hp p' hp' k l e
        have hk := hb k
        have hl := hb l
        have e1 := hi' hp hk
        have e2 := hi' hp' hl
        have e3 := lo hp hk
        have e4 := lo hp' hl
        split at e <;> split at e
        · have e := Ptr.add_inj e
          have hp : p = p' := by
            by_contra hne
            rcases Nat.lt_or_gt_of_ne hne with h | h
            · have : r * (p + 1) ≤ r * p' := Nat.mul_le_mul_left _ h
              rw [Nat.mul_add] at this; omega
            · have : r * (p' + 1) ≤ r * p := Nat.mul_le_mul_left _ h
              rw [Nat.mul_add] at this; omega
          subst hp
          exact ⟨rfl, Fin.ext (by omega)⟩
        · have e := Ptr.add_inj e; omega
        · have e := Ptr.add_inj e; omega
        · have e := Ptr.add_inj e
          have hkl : k.val / 2 = l.val / 2 := by
            by_contra hne
            rcases Nat.lt_or_gt_of_ne hne with h | h
            · have : (k.val / 2 + 1) * m ≤ l.val / 2 * m := Nat.mul_le_mul_right _ h
              rw [Nat.add_mul] at this; omega
            · have : (l.val / 2 + 1) * m ≤ k.val / 2 * m := Nat.mul_le_mul_right _ h
              rw [Nat.add_mul] at this; omega
          rw [hkl] at e
          exact ⟨by omega, Fin.ext (by omega)⟩)
      (by
        intro p hp i
        obtain ⟨t, ht, e⟩ := hbound p hp i
        simp only [e]; exact hal t ht)
      (by
        intro p hp i
        obtain ⟨t, ht, e⟩ := hbound p hp i
        simp only [e]; exact hD (mem_region ht)) (!decide (r * m < thr.w))
  refine ⟨h', g, fun _ p hp k => ⟨?_, ?_⟩, fun l hl => hf l ?_⟩
  · have := hv p hp ⟨2 * k.val, by omega⟩
    simp only [Nat.mul_mod_right, if_true, Nat.mul_div_cancel_left k.val (by omega : 0 < 2)] at this
    rw [show r * p + r * m + (k.val + 1) = r * m + r * p + (k.val + 1) by omega]
    exact this
  · have := hv p hp ⟨2 * k.val + 1, by omega⟩
    simp only [show (2 * k.val + 1) % 2 = 1 by omega, show (2 * k.val + 1) / 2 = k.val by omega] at this
    exact this
  · rintro p hp i rfl
    obtain ⟨t, ht, e⟩ := hbound p hp i
    apply hl
    rw [e]; exact mem_region ht

/-- the twiddles the cores compute from the table -/
def stockhamTw (C : Type) [CArith F C] (path : Path) (r N : Nat) (inv : Bool) :
    Nat → Fin (r-1) → C :=
  match path with
  | .serial => fun p k => cj inv (wtVal C N r p k)
  | .omp => fun p k => wpow (cj inv (wr1Val C N p)) (k.val + 1)

/-- The table content, direction-independent: what `setup2` leaves in `W`. -/
def TabOK (C : Type) [CArith F C] (th r N : Nat) (h : Heap C) (W : Ptr) : Prop :=
  r < N → ∀ inv, TwOK (pathOf th N) r N inv h W (stockhamTw C (pathOf th N) r N inv)

theorem stockhamTable_good {R D : Set Loc} {thr : Thr} {th r N : Nat} {W : Ptr} {h : Heap C}
    (hr : 0 < r) (hdvd : r < N → r ∣ N) (hal : Alloc h W (stockhamTabLen th r N))
    (hD : Region W (stockhamTabLen th r N) ⊆ D) :
    ∃ h', Good R D (stockhamTable C thr th r N W) h h' ∧ TabOK C th r N h' W ∧
      ∀ l, l ∉ Region W (stockhamTabLen th r N) → h' l = h l := by
  unfold stockhamTable
  unfold stockhamTabLen at *
  unfold TabOK pathOf
  by_cases h1 : N ≤ r
  · rw [if_pos h1]
    exact ⟨h, .nil, fun h => by omega, fun _ _ => rfl⟩
  · rw [if_neg h1]
    simp only [h1, if_false] at hal hD ⊢
    by_cases h2 : N < th
    · simp only [h2, if_true] at hal hD ⊢
      obtain ⟨h', g, hv, hf⟩ := initWt_good (R := R) (thr := thr) hr (hdvd (by omega)) hal hD
      exact ⟨h', g, fun _ inv => ⟨wtVal C N r, fun p hp k => ⟨rfl, hv (by omega) p hp k⟩⟩, hf⟩
    · simp only [h2, if_false] at hal hD ⊢
      obtain ⟨h', g, hv, hf⟩ := initWr1_good (R := R) (thr := thr) (r := r) (N := N) hal hD
      exact ⟨h', g, fun _ inv => ⟨wr1Val C N, fun p hp => ⟨fun k => rfl, hv (by omega) p hp⟩⟩, hf⟩

theorem TabOK.frame {th r N : Nat} {h h' : Heap C} {W : Ptr} (t : TabOK C th r N h W)
    (e : ∀ i < stockhamTabLen th r N, h' (W + i).loc = h (W + i).loc) : TabOK C th r N h' W := by
  intro hlt inv
  have := t hlt inv
  unfold stockhamTabLen at e
  rw [if_neg (by omega)] at e
  unfold pathOf at *
  split
  · rename_i hth
    rw [if_pos hth] at e
    rw [if_pos hth] at this
    obtain ⟨c, hc⟩ := this
    refine ⟨c, fun p hp k => ?_⟩
    obtain ⟨h1, h2, h3⟩ := hc p hp k
    exact ⟨h1, by rw [e _ (tw_idx1 hp k.isLt), h2], by rw [e _ (tw_idx2 hp k.isLt), h3]⟩
  · rename_i hth
    rw [if_neg hth] at e
    rw [if_neg hth] at this
    obtain ⟨c, hc⟩ := this
    refine ⟨c, fun p hp => ?_⟩
    obtain ⟨h1, h2⟩ := hc p hp
    exact ⟨h1, by rw [e _ hp, h2]⟩

theorem tabLen_eq {th r N : Nat} (h : r < N) : tabLen (pathOf th N) r N = stockhamTabLen th r N := by
  unfold pathOf stockhamTabLen
  rw [if_neg (show ¬ N ≤ r by omega)]
  split <;> rfl

/-! ### exact values -/

theorem expj_C (t : ℝ) : (CArith.expj t : ℂ) = Complex.exp (t * Complex.I) := rfl

theorem conj_om (N : Nat) : (starRingEnd ℂ) (om false N) = om true N := by
  unfold om
  rw [← Complex.exp_conj]
  congr 1
  have : (starRingEnd ℂ) 2 = 2 := Complex.conj_ofNat 2
  simp [this]

theorem cj_om (inv : Bool) (N k : Nat) : cj inv (om false N ^ k) = om inv N ^ k := by
  cases inv
  · rfl
  · simp only [cj, if_true, cnjpz_C, map_pow, conj_om]

theorem wtVal_C (N r p : Nat) (k : Fin (r-1)) :
    wtVal ℂ N r p k = om false N ^ ((k.val + 1) * p) := by
  unfold wtVal thetaW
  rw [expj_C, om, ← Complex.exp_nat_mul]
  congr 1
  simp only [fmul, fdiv, fneg, fofNat, fpi]
  push_cast
  simp
  ring

theorem wr1Val_C (N p : Nat) : wr1Val ℂ N p = om false N ^ p := by
  unfold wr1Val thetaW
  rw [expj_C, om, ← Complex.exp_nat_mul]
  congr 1
  simp only [fmul, fdiv, fneg, fofNat, fpi]
  push_cast
  simp
  ring

theorem wpow_C (w : ℂ) (k : Nat) (hk : 1 ≤ k) : wpow w k = w ^ k := by
  induction k using Nat.strong_induction_on with
  | _ k ih =>
    rw [wpow.eq_def]
    split
    · rw [show k = 1 by omega, pow_one]
    split
    · rw [ih (k/2) (by omega) (by omega), mulpz_C, ← pow_add]; congr 1; omega
    · rw [ih (k/2) (by omega) (by omega), ih (k/2+1) (by omega) (by omega), mulpz_C, ← pow_add]
      congr 1; omega

theorem stockhamTw_C (path : Path) (r N : Nat) (inv : Bool) :
    TwC r N inv (stockhamTw ℂ path r N inv) := by
  intro p hp k
  cases path
  · simp only [stockhamTw, wtVal_C, cj_om]
  · simp only [stockhamTw, wr1Val_C, cj_om]
    rw [wpow_C _ _ (by omega), ← pow_mul, Nat.mul_comm]

end OTFFT
