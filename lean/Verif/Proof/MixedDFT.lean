/-
Layer 2 for the mixed-radix transform: it is a DFT.
-/
import Verif.Proof.MixedRec
import Verif.Proof.TablesMem

namespace OTFFT

open Finset

theorem sdft_n1 (w : ℂ) {s t : ℕ} (u : ℕ → ℂ) (ht : t < s) : sdft w 1 s u t = u t := by
  unfold sdft
  simp [Nat.mod_eq_of_lt ht]

/-- the table of the mixed-radix class, exactly -/
noncomputable def omTab (N : ℕ) : ℕ → ℂ := fun p => om false N ^ p

theorem om_inv_mul (N : ℕ) : om false N * om true N = 1 := by
  unfold om
  rw [← Complex.exp_add, ← Complex.exp_zero]
  congr 1
  simp
  ring

theorem omTab_idx (inv : Bool) {N a : ℕ} (hN : 0 < N) (ha : a ≤ N) :
    omTab N (mixIdx inv N a) = om inv N ^ a := by
  unfold omTab mixIdx
  cases inv
  · rfl
  · simp only [if_true]
    have h1 : om false N ^ (N - a) * om false N ^ a = 1 := by
      rw [← pow_add, Nat.sub_add_cancel ha, om_pow_self false hN]
    have h2 : om false N ^ a * om true N ^ a = 1 := by
      rw [← mul_pow, om_inv_mul, one_pow]
    calc om false N ^ (N - a) = om false N ^ (N - a) * (om false N ^ a * om true N ^ a) := by
          rw [h2, mul_one]
      _ = om true N ^ a := by rw [← mul_assoc, h1, one_mul]

/-- a last stage (`m = 1`) is a DFT when its butterfly is -/
theorem end_step {w : ℂ} {r s : ℕ} [NeZero r] (hw : w ^ (s * r) = 1)
    {G : ℕ → (Fin r → ℂ) → Fin r → ℂ}
    (hG : ∀ xs i, G 0 xs i = ∑ j : Fin r, xs j * w ^ (s * (i.val * j.val)))
    (v : ℕ → ℂ) {t : ℕ} (ht : t < s * r) : difPure r 1 s G v t = sdft w r s v t := by
  have := dif_step (m := 1) (s := s) (r := r) (G := G) (by rw [Nat.mul_one]; exact hw) (by
    intro p hp xs i
    have : p = 0 := by omega
    subst this
    rw [hG]; simp) v (t := t) (by rw [Nat.mul_one]; exact ht)
  rw [Nat.mul_one, sdft_n1 _ _ (by rw [Nat.mul_comm]; exact ht)] at this
  exact this

section
variable {inv : Bool} {m s N p : ℕ}

theorem difOut_dft {r : ℕ} [NeZero r] {B : BF r} (hB : BFGood B inv) (hN : N = s * (r * m))
    (hpos : 0 < s) (hp : p < m) {T : Fin (r-1) → ℂ}
    (hT : ∀ k, T k = om inv N ^ ((k.val + 1) * (s * p))) (xs : Fin r → ℂ) (i : Fin r) :
    difOut B xs T i =
      (∑ j : Fin r, xs j * om inv N ^ (s * (m * (i.val * j.val)))) * om inv N ^ (s * (i.val * p)) := by
  have := difG_dft (T := fun a k => om inv N ^ ((k.val + 1) * a)) hB hN hpos (fun _ _ _ => rfl) p hp
    xs i
  rw [← this]
  unfold difG
  congr 1
  funext k; exact hT k

/-- sums of the radix-5 and radix-3 stages -/
theorem sum5_C (xs : Fin 5 → ℂ) (z : ℂ) (hz : z ^ 5 = 1) (i : Fin 5) :
    sum5 xs z i = ∑ j : Fin 5, xs j * z ^ (i.val * j.val) := by
  have e : ∀ k, z ^ (k + 5) = z ^ k := fun k => by rw [pow_add, hz, mul_one]
  have e6 : z ^ 6 = z := by simpa using e 1
  have e8 : z ^ 8 = z ^ 3 := e 3
  have e9 : z ^ 9 = z ^ 4 := e 4
  have e12 : z ^ 12 = z ^ 2 := (e 7).trans (e 2)
  have e16 : z ^ 16 = z := by rw [e 11, e 6, e6]
  rw [Fin.sum_univ_five]
  fin_cases i <;> simp [sum5, addpz_C, mulpz_C, e6, e8, e9, e12, e16] <;> ring_nf

theorem sum3_C (xs : Fin 3 → ℂ) (z : ℂ) (hz : z ^ 3 = 1) (i : Fin 3) :
    sum3 xs z i = ∑ j : Fin 3, xs j * z ^ (i.val * j.val) := by
  have e4 : z ^ 4 = z := by rw [show 4 = 3 + 1 from rfl, pow_add, hz]; simp
  rw [Fin.sum_univ_three]
  fin_cases i <;> simp [sum3, addpz_C, mulpz_C, e4] <;> ring_nf

theorem core5_dft (hN : N = s * (5 * m)) (hpos : 0 < s) (hp : p < m) (xs : Fin 5 → ℂ) (i : Fin 5) :
    coreG mix5 (omTab N) (fun p k => if k.val = 0 then (if inv then N / 5 * 4 else N / 5)
        else mixIdx inv N (s * p)) p xs i =
      (∑ j : Fin 5, xs j * om inv N ^ (s * (m * (i.val * j.val)))) * om inv N ^ (s * (i.val * p)) := by
  have hNpos : 0 < N := by rw [hN]; exact Nat.mul_pos hpos (by omega)
  have hN5 : N / 5 = s * m := by
    rw [hN, show s * (5 * m) = 5 * (s * m) by ring, Nat.mul_div_cancel_left _ (by omega)]
  have hz : omTab N (if inv then N / 5 * 4 else N / 5) = om inv N ^ (s * m) := by
    rw [← omTab_idx inv hNpos (a := s * m) (by rw [hN]; nlinarith)]
    unfold mixIdx
    congr 1
    cases inv
    · simpa using hN5
    · simp only [if_true]
      rw [hN5, hN, show s * (5 * m) = s * m * 4 + s * m by ring]; omega
  have hsp : s * p ≤ N := by rw [hN]; exact Nat.mul_le_mul_left _ (by omega)
  have hz5 : (om inv N ^ (s * m)) ^ 5 = 1 := by
    rw [← pow_mul, show s * m * 5 = N by rw [hN]; ring, om_pow_self inv hNpos]
  have hsum : ∀ i : Fin 5, sum5 xs (om inv N ^ (s * m)) i =
      ∑ j : Fin 5, xs j * om inv N ^ (s * (m * (i.val * j.val))) := by
    intro i
    rw [sum5_C _ _ hz5]
    refine sum_congr rfl fun j _ => ?_
    rw [← pow_mul]; congr 2; ring
  unfold coreG mix5
  simp only [Fin.val_zero, if_true, Fin.val_one, one_ne_zero, if_false, hz, omTab_idx inv hNpos hsp,
    mulpz_C, hsum]
  fin_cases i
  · simp
  · simp
  · simp only [Fin.reduceFinMk, Matrix.cons_val]
    congr 1
    rw [show s * (2 * p) = s * p + s * p by ring, pow_add]
  · simp only [Fin.reduceFinMk, Matrix.cons_val]
    congr 1
    rw [show s * (3 * p) = s * p + (s * p + s * p) by ring, pow_add, pow_add]
  · simp only [Fin.reduceFinMk, Matrix.cons_val]
    congr 1
    rw [show s * (4 * p) = (s * p + s * p) + (s * p + s * p) by ring, pow_add,
      pow_add]

theorem core3_dft (hN : N = s * (3 * m)) (hpos : 0 < s) (hp : p < m) (xs : Fin 3 → ℂ) (i : Fin 3) :
    coreG mix3 (omTab N) (fun p k => if k.val = 0 then (if inv then N / 3 * 2 else N / 3)
        else mixIdx inv N (s * p)) p xs i =
      (∑ j : Fin 3, xs j * om inv N ^ (s * (m * (i.val * j.val)))) * om inv N ^ (s * (i.val * p)) := by
  have hNpos : 0 < N := by rw [hN]; exact Nat.mul_pos hpos (by omega)
  have hN5 : N / 3 = s * m := by
    rw [hN, show s * (3 * m) = 3 * (s * m) by ring, Nat.mul_div_cancel_left _ (by omega)]
  have hz : omTab N (if inv then N / 3 * 2 else N / 3) = om inv N ^ (s * m) := by
    rw [← omTab_idx inv hNpos (a := s * m) (by rw [hN]; nlinarith)]
    unfold mixIdx
    congr 1
    cases inv
    · simpa using hN5
    · simp only [if_true]
      rw [hN5, hN, show s * (3 * m) = s * m * 2 + s * m by ring]; omega
  have hsp : s * p ≤ N := by rw [hN]; exact Nat.mul_le_mul_left _ (by omega)
  have hz5 : (om inv N ^ (s * m)) ^ 3 = 1 := by
    rw [← pow_mul, show s * m * 3 = N by rw [hN]; ring, om_pow_self inv hNpos]
  have hsum : ∀ i : Fin 3, sum3 xs (om inv N ^ (s * m)) i =
      ∑ j : Fin 3, xs j * om inv N ^ (s * (m * (i.val * j.val))) := by
    intro i
    rw [sum3_C _ _ hz5]
    refine sum_congr rfl fun j _ => ?_
    rw [← pow_mul]; congr 2; ring
  unfold coreG mix3
  simp only [Fin.val_zero, if_true, Fin.val_one, one_ne_zero, if_false, hz, omTab_idx inv hNpos hsp,
    mulpz_C, hsum]
  fin_cases i
  · simp
  · simp
  · simp only [Fin.reduceFinMk, Matrix.cons_val]
    congr 1
    rw [show s * (2 * p) = s * p + s * p by ring, pow_add]

theorem end5_dft (hN : N = s * 5) (hpos : 0 < s) (xs : Fin 5 → ℂ) (i : Fin 5) :
    coreG mixEnd5 (omTab N) (fun _ _ => if inv then 4 * s else s) 0 xs i =
      ∑ j : Fin 5, xs j * om inv N ^ (s * (i.val * j.val)) := by
  have hNpos : 0 < N := by rw [hN]; omega
  have hz : omTab N (if inv then 4 * s else s) = om inv N ^ s := by
    rw [← omTab_idx inv hNpos (a := s) (by omega)]
    unfold mixIdx
    congr 1
    cases inv
    · rfl
    · simp only [if_true]; omega
  unfold coreG mixEnd5
  simp only [hz]
  rw [sum5_C _ _ (by rw [← pow_mul, ← hN, om_pow_self inv hNpos])]
  refine sum_congr rfl fun j _ => ?_
  rw [← pow_mul]

theorem end3_dft (hN : N = s * 3) (hpos : 0 < s) (xs : Fin 3 → ℂ) (i : Fin 3) :
    coreG mixEnd3 (omTab N) (fun _ _ => if inv then 2 * s else s) 0 xs i =
      ∑ j : Fin 3, xs j * om inv N ^ (s * (i.val * j.val)) := by
  have hNpos : 0 < N := by rw [hN]; omega
  have hz : omTab N (if inv then 2 * s else s) = om inv N ^ s := by
    rw [← omTab_idx inv hNpos (a := s) (by omega)]
    unfold mixIdx
    congr 1
    cases inv
    · rfl
    · simp only [if_true]; omega
  unfold coreG mixEnd3
  simp only [hz]
  rw [sum3_C _ _ (by rw [← pow_mul, ← hN, om_pow_self inv hNpos])]
  refine sum_congr rfl fun j _ => ?_
  rw [← pow_mul]

theorem endBF_dft {r : ℕ} [NeZero r] {B : BF r} (hB : BFGood B inv) (hN : N = s * r) (hpos : 0 < s)
    (wv : ℕ → ℂ) (xs : Fin r → ℂ) (i : Fin r) :
    coreG (mixEndBF B) wv (fun _ => Fin.elim0) 0 xs i =
      ∑ j : Fin r, xs j * om inv N ^ (s * (i.val * j.val)) := by
  have hr : 0 < r := Nat.pos_of_ne_zero (NeZero.ne r)
  have hNpos : 0 < N := by rw [hN]; exact Nat.mul_pos hpos hr
  unfold coreG mixEndBF
  simp only
  rw [hB]
  refine sum_congr rfl fun j _ => ?_
  rw [← om_pow_div inv (N := N) (r := r) (m := s) (by rw [hN]; ring) hNpos, ← pow_mul]

theorem mix2_dft (hN : N = s * (2 * m)) (hpos : 0 < s) (hp : p < m) (xs : Fin 2 → ℂ) (i : Fin 2) :
    coreG mix2 (omTab N) (fun p _ => mixIdx inv N (s * p)) p xs i =
      (∑ j : Fin 2, xs j * om inv N ^ (s * (m * (i.val * j.val)))) * om inv N ^ (s * (i.val * p)) := by
  have hNpos : 0 < N := by rw [hN]; exact Nat.mul_pos hpos (by omega)
  have hsp : s * p ≤ N := by rw [hN]; exact Nat.mul_le_mul_left _ (by omega)
  unfold coreG mix2
  simp only
  refine difOut_dft (bf2_good inv) hN hpos hp ?_ xs i
  intro k
  rw [omTab_idx inv hNpos hsp]
  fin_cases k; simp

theorem mix4s_dft (hN : N = s * (4 * m)) (hpos : 0 < s) (hp : p < m) (xs : Fin 4 → ℂ) (i : Fin 4) :
    coreG (mix4s inv) (omTab N) (fun p k => mixIdx inv N ((k.val + 1) * (s * p))) p xs i =
      (∑ j : Fin 4, xs j * om inv N ^ (s * (m * (i.val * j.val)))) * om inv N ^ (s * (i.val * p)) := by
  have hNpos : 0 < N := by rw [hN]; exact Nat.mul_pos hpos (by omega)
  unfold coreG mix4s
  simp only
  refine difOut_dft (bf4_good inv) hN hpos hp ?_ xs i
  intro k
  rw [omTab_idx inv hNpos]
  rw [hN, show (k.val + 1) * (s * p) = s * ((k.val + 1) * p) by ring]
  exact Nat.mul_le_mul_left _ (Nat.mul_le_mul (by omega) hp.le)

theorem mix4one_dft (hN : N = 1 * (4 * m)) (hp : p < m) (xs : Fin 4 → ℂ) (i : Fin 4) :
    coreG (mix4one inv) (omTab N) (fun p _ => p) p xs i =
      (∑ j : Fin 4, xs j * om inv N ^ (1 * (m * (i.val * j.val)))) * om inv N ^ (1 * (i.val * p)) := by
  unfold coreG mix4one
  simp only
  refine difOut_dft (bf4_good inv) hN (by omega) hp ?_ xs i
  intro k
  unfold omTab
  rw [cj_om, wpow_C _ _ (by omega), ← pow_mul]
  congr 1; ring

theorem mix8s_dft (hN : N = s * (8 * m)) (hpos : 0 < s) (hp : p < m) (xs : Fin 8 → ℂ) (i : Fin 8) :
    coreG (mix8s inv) (omTab N) (fun p k => mixIdx inv N ((k.val + 1) * (s * p))) p xs i =
      (∑ j : Fin 8, xs j * om inv N ^ (s * (m * (i.val * j.val)))) * om inv N ^ (s * (i.val * p)) := by
  have hNpos : 0 < N := by rw [hN]; exact Nat.mul_pos hpos (by omega)
  have e : ∀ k : Fin 3, omTab N (mixIdx inv N ((k.val + 1) * (s * p))) =
      om inv N ^ ((k.val + 1) * (s * p)) := by
    intro k
    rw [omTab_idx inv hNpos]
    rw [hN, show (k.val + 1) * (s * p) = s * ((k.val + 1) * p) by ring]
    exact Nat.mul_le_mul_left _ (Nat.mul_le_mul (by omega) hp.le)
  unfold coreG mix8s
  simp only
  refine difOut_dft (bf8_good inv) hN hpos hp ?_ xs i
  intro k
  simp only [e, mulpz_C, ← pow_add]
  fin_cases k <;> simp <;> congr 1 <;> ring

theorem mix8one_dft (hN : N = 1 * (8 * m)) (hp : p < m) (xs : Fin 8 → ℂ) (i : Fin 8) :
    coreG (mix8one inv) (omTab N) (fun p _ => p) p xs i =
      (∑ j : Fin 8, xs j * om inv N ^ (1 * (m * (i.val * j.val)))) * om inv N ^ (1 * (i.val * p)) := by
  unfold coreG mix8one
  simp only
  refine difOut_dft (bf8_good inv) hN (by omega) hp ?_ xs i
  intro k
  unfold omTab
  rw [cj_om, wpow_C _ _ (by omega), ← pow_mul]
  congr 1; ring

theorem anySum_C (k i : ℕ) (xv wv : ℕ → ℂ) (js : List ℕ) (z : ℂ) :
    anySum k i xv wv js z = z + (js.map fun j => xv j * wv (i * j % k)).sum := by
  induction js generalizing z with
  | nil => simp [anySum]
  | cons j js ih =>
    rw [anySum, ih]
    simp only [List.map_cons, List.sum_cons, addpz_C, mulpz_C]
    ring

theorem zero_C : (CArith.cmk (fofNat 0 : ℝ) (fofNat 0) : ℂ) = 0 := by
  apply Complex.ext <;> simp [CArith.cmk, DArith.fofNat]

theorem anySum_eq {k : ℕ} [NeZero k] (i : Fin k) (xs : Fin k → ℂ) (z : ℂ) (hz : z ^ k = 1)
    (wv : ℕ → ℂ) (hw : ∀ a < k, wv a = z ^ a) :
    anySum k i.val (fun j => xs (Fin.ofNat k j)) wv (List.range k)
        (CArith.cmk (fofNat 0 : ℝ) (fofNat 0)) =
      ∑ j : Fin k, xs j * z ^ (i.val * j.val) := by
  have hk : 0 < k := Nat.pos_of_ne_zero (NeZero.ne k)
  rw [anySum_C, zero_C, zero_add]
  have : ((List.range k).map fun j => xs (Fin.ofNat k j) * wv (i.val * j % k)).sum =
      ∑ j ∈ range k, xs (Fin.ofNat k j) * wv (i.val * j % k) := by
    rfl
  rw [this, Finset.sum_range]
  refine sum_congr rfl fun j _ => ?_
  rw [hw _ (Nat.mod_lt _ hk), show Fin.ofNat k j.val = j from Fin.ext (Nat.mod_eq_of_lt j.isLt)]
  congr 1
  conv_rhs => rw [← Nat.mod_add_div (i.val * j.val) k, pow_add, pow_mul, hz, one_pow, mul_one]

theorem any_core_dft {k : ℕ} [NeZero k] (hN : N = s * (k * m)) (hpos : 0 < s) (hp : p < m)
    (xs : Fin k → ℂ) (i : Fin k) :
    anyG k (fun a => omTab N (mixIdx inv N (m * s * a)))
        (some fun p i => omTab N (mixIdx inv N (i * (s * p)))) p xs i =
      (∑ j : Fin k, xs j * om inv N ^ (s * (m * (i.val * j.val)))) * om inv N ^ (s * (i.val * p)) := by
  have hk : 0 < k := Nat.pos_of_ne_zero (NeZero.ne k)
  have hNpos : 0 < N := by rw [hN]; exact Nat.mul_pos hpos (Nat.mul_pos hk (by omega))
  unfold anyG anyVal
  simp only [Option.map_some]
  rw [anySum_eq i xs (om inv N ^ (m * s)) (by
      rw [← pow_mul, show m * s * k = N by rw [hN]; ring, om_pow_self inv hNpos]) _ (by
      intro a ha
      rw [omTab_idx inv hNpos, pow_mul]
      rw [hN, show s * (k * m) = m * s * k by ring]
      exact Nat.mul_le_mul_left _ ha.le), mulpz_C, omTab_idx inv hNpos]
  · congr 1
    · refine sum_congr rfl fun j _ => ?_
      rw [← pow_mul]; congr 2; ring
    · congr 1; ring
  · rw [hN, show i.val * (s * p) = s * (i.val * p) by ring]
    exact Nat.mul_le_mul_left _ (Nat.mul_le_mul i.isLt.le hp.le)

theorem any_end_dft {k : ℕ} [NeZero k] (hN : N = s * k) (hpos : 0 < s)
    (xs : Fin k → ℂ) (i : Fin k) :
    anyG k (fun a => omTab N (mixIdx inv N (s * a))) none 0 xs i =
      ∑ j : Fin k, xs j * om inv N ^ (s * (i.val * j.val)) := by
  have hk : 0 < k := Nat.pos_of_ne_zero (NeZero.ne k)
  have hNpos : 0 < N := by rw [hN]; exact Nat.mul_pos hpos hk
  unfold anyG anyVal
  simp only [Option.map_none]
  rw [anySum_eq i xs (om inv N ^ s) (by
      rw [← pow_mul, ← hN, om_pow_self inv hNpos]) _ (by
      intro a ha
      rw [omTab_idx inv hNpos, pow_mul]
      rw [hN]
      exact Nat.mul_le_mul_left _ ha.le)]
  refine sum_congr rfl fun j _ => ?_
  rw [← pow_mul]

theorem mixAnyRec_dft : ∀ (n s N : ℕ) (v : ℕ → ℂ), 1 < n → 1 ≤ s → N = n * s → ∀ t < N,
    mixAnyRec inv N (omTab N) n s v t = sdft (om inv N) n s v t := by
  intro n
  induction n using Nat.strong_induction_on with
  | _ n ih =>
  intro s N v hn hs hN t ht
  have hpr : n.minFac.Prime := Nat.minFac_prime (by omega)
  have hm : n = n.minFac * (n / n.minFac) := (Nat.mul_div_cancel' (Nat.minFac_dvd n)).symm
  have hNpos : 0 < N := by omega
  rw [mixAnyRec.eq_def, dif_neg (by omega)]
  by_cases hkn : n.minFac = n
  · rw [if_pos hkn]
    have hN' : N = s * n.minFac := by rw [hkn, hN, Nat.mul_comm]
    rw [end_step (w := om inv N) (by rw [← hN', om_pow_self inv hNpos])
      (any_end_dft hN' hs) v (by rw [← hN']; exact ht), hkn]
  · rw [if_neg hkn]
    have hN' : N = s * (n.minFac * (n / n.minFac)) := by rw [← hm, hN, Nat.mul_comm]
    have hm1 : 1 < n / n.minFac := by
      rcases Nat.lt_or_ge 1 (n / n.minFac) with h | h
      · exact h
      · exfalso
        rcases Nat.le_one_iff_eq_zero_or_eq_one.1 h with h | h
        · rw [h, Nat.mul_zero] at hm; omega
        · rw [h, Nat.mul_one] at hm; exact hkn hm.symm
    rw [ih _ (Nat.div_lt_self (by omega) hpr.one_lt) (n.minFac * s) N _ hm1
        (Nat.mul_pos hpr.pos hs) (by rw [hN']; ring) t ht,
      dif_step (by rw [← hN']; exact om_pow_self inv hNpos)
        (fun p hp => any_core_dft hN' hs hp) v (by rw [← hN']; exact ht), ← hm]

theorem mixRec_dft : ∀ (n s N : ℕ) (v : ℕ → ℂ), 1 ≤ n → 1 ≤ s → N = n * s → ∀ t < N,
    mixRec inv N (omTab N) n s v t = sdft (om inv N) n s v t := by
  intro n
  induction n using Nat.strong_induction_on with
  | _ n ih =>
  intro s N v hn hs hN t ht
  have hNpos : 0 < N := by omega
  rw [mixRec.eq_def]
  by_cases hn2 : n < 2
  · rw [dif_pos hn2]
    have : n = 1 := by omega
    subst this
    rw [sdft_n1 _ _ (by omega)]
  rw [dif_neg hn2]
  have fin : ∀ (r : ℕ) [NeZero r] (G : ℕ → (Fin r → ℂ) → Fin r → ℂ), n = r →
      (N = s * r → ∀ xs i, G 0 xs i = ∑ j : Fin r, xs j * om inv N ^ (s * (i.val * j.val))) →
      difPure r 1 s G v t = sdft (om inv N) n s v t := by
    intro r _ G e hG
    have hN' : N = s * r := by rw [hN, e, Nat.mul_comm]
    rw [end_step (w := om inv N) (by rw [← hN', om_pow_self inv hNpos]) (hG hN') v
      (by rw [← hN']; exact ht), e]
  have stp : ∀ (r : ℕ) [NeZero r] (G : ℕ → (Fin r → ℂ) → Fin r → ℂ), 2 ≤ r → n % r = 0 →
      (N = s * (r * (n / r)) → ∀ p < n / r, ∀ xs i, G p xs i =
        (∑ j : Fin r, xs j * om inv N ^ (s * (n / r * (i.val * j.val)))) * om inv N ^ (s * (i.val * p))) →
      mixRec inv N (omTab N) (n / r) (r * s) (difPure r (n / r) s G v) t =
        sdft (om inv N) n s v t := by
    intro r _ G hr hd hG
    have hm : n = r * (n / r) := (Nat.mul_div_cancel' (Nat.dvd_of_mod_eq_zero hd)).symm
    have hN' : N = s * (r * (n / r)) := by rw [← hm, hN, Nat.mul_comm]
    have hm1 : 1 ≤ n / r := by
      rcases Nat.eq_zero_or_pos (n / r) with h | h
      · rw [h, Nat.mul_zero] at hm; omega
      · exact h
    rw [ih _ (Nat.div_lt_self (by omega) (by omega)) (r * s) N _ hm1
        (Nat.mul_pos (by omega) hs) (by rw [hN']; ring) t ht,
      dif_step (by rw [← hN']; exact om_pow_self inv hNpos)
        (hG hN') v (by rw [← hN']; exact ht), ← hm]
  have one : ¬ 2 ≤ s → s = 1 := fun h => by omega
  split
  · rename_i h8
    split
    · rename_i e
      exact fin 8 _ e fun h => endBF_dft (bf8_good inv) h hs _
    · split
      · exact stp 8 _ (by omega) h8 fun h p hp => mix8s_dft h hs hp
      · rename_i h2
        refine stp 8 _ (by omega) h8 fun h p hp => ?_
        have := one h2
        subst this
        exact mix8one_dft h hp
  split
  · rename_i h8
    split
    · rename_i e
      exact fin 4 _ e fun h => endBF_dft (bf4_good inv) h hs _
    · split
      · exact stp 4 _ (by omega) h8 fun h p hp => mix4s_dft h hs hp
      · rename_i h2
        refine stp 4 _ (by omega) h8 fun h p hp => ?_
        have := one h2
        subst this
        exact mix4one_dft h hp
  split
  · rename_i h8
    split
    · rename_i e
      exact fin 2 _ e fun h => endBF_dft (bf2_good inv) h hs _
    · exact stp 2 _ (by omega) h8 fun h p hp => mix2_dft h hs hp
  split
  · rename_i h8
    split
    · rename_i e
      exact fin 5 _ e fun h => end5_dft h hs
    · exact stp 5 _ (by omega) h8 fun h p hp => core5_dft h hs hp
  split
  · rename_i h8
    split
    · rename_i e
      exact fin 3 _ e fun h => end3_dft h hs
    · exact stp 3 _ (by omega) h8 fun h p hp => core3_dft h hs hp
  · exact mixAnyRec_dft n s N v (by omega) hs hN t ht

end
end OTFFT
