/-
Error analysis of the mixed-radix transform.
-/
import Verif.Spec.Float
import Verif.Proof.ApOut

namespace OTFFT

/-! ### weights -/

theorem errWeight_one : errWeight 1 = 0 := by simp [errWeight]

theorem errWeight_mul {a b : ℕ} (ha : a ≠ 0) (hb : b ≠ 0) : errWeight (a * b) = errWeight a + errWeight b := by
  unfold errWeight
  rw [((Nat.perm_primeFactorsList_mul ha hb).map primeWeight).sum_eq, List.map_append, List.sum_append]

theorem errWeight_prime {p : ℕ} (hp : p.Prime) : errWeight p = primeWeight p := by
  unfold errWeight
  rw [Nat.primeFactorsList_prime hp]
  simp

theorem errWeight_two_pow (k : ℕ) : errWeight (2 ^ k) = 50 * k := by
  induction k with
  | zero => simp [errWeight]
  | succ k ih =>
    rw [pow_succ, errWeight_mul (by positivity) (by omega), ih, errWeight_prime Nat.prime_two]
    simp [primeWeight]
    omega

theorem errWeight_div {n d : ℕ} (hn : n ≠ 0) (hd : d ∣ n) : errWeight n = errWeight d + errWeight (n / d) := by
  obtain ⟨c, rfl⟩ := hd
  have h1 : d ≠ 0 := by rintro rfl; simp at hn
  have h2 : c ≠ 0 := by rintro rfl; simp at hn
  rw [errWeight_mul h1 h2, Nat.mul_div_cancel_left _ (Nat.pos_of_ne_zero h1)]

theorem errWeight_ge {n : ℕ} (hn : 2 ≤ n) : 50 ≤ errWeight n := by
  have hq := Nat.minFac_prime (n := n) (by omega)
  rw [errWeight_div (n := n) (by omega) (Nat.minFac_dvd _), errWeight_prime hq]
  have : 50 ≤ primeWeight n.minFac := by unfold primeWeight; split_ifs <;> omega
  omega

theorem errWeight_2 : errWeight 2 = 50 := errWeight_two_pow 1
theorem errWeight_4 : errWeight 4 = 100 := errWeight_two_pow 2
theorem errWeight_8 : errWeight 8 = 150 := errWeight_two_pow 3
theorem errWeight_3 : errWeight 3 = 140 := by rw [errWeight_prime Nat.prime_three]; rfl
theorem errWeight_5 : errWeight 5 = 274 := by rw [errWeight_prime Nat.prime_five]; rfl

namespace ApLaws
variable {F C : Type} [DArith F] [CArith F C] {Ap : ℂ → C → ℝ → ℕ → Prop} {m0 G : ℝ}
  {mode : ScaleMode} {inv : Bool} {v : ℕ → ℂ} {v' : ℕ → C} {M : ℝ} {k : ℕ}

/-- a stage body adds `cost` roundings if its table entries have `w` -/
def BflyT (Ap : ℂ → C → ℝ → ℕ → Prop) {r b : ℕ} (S : BFT r b) (w cost : ℕ) : Prop :=
  ∀ (x : Fin r → ℂ) (x' : Fin r → C) (T : Fin b → ℂ) (T' : Fin b → C) (M : ℝ) (k : ℕ), (∀ j, Ap (x j) (x' j) M k) →
    (∀ i, Ap (T i) (T' i) 1 w) → ∀ j, Ap (S.fn x T j) (S.fn x' T' j) (r * M) (k + cost)

theorem bt_end {r : ℕ} {B : BF r} {cost : ℕ} (h : Bfly Ap B cost) : BflyT Ap (mixEndBF B) 0 cost :=
  fun x x' _ _ M k hx _ j => h x x' M k hx j

theorem bt_mix2 (L : ApLaws Ap m0 G) : BflyT Ap mix2 29 34 := fun x x' _ _ _ _ hx hT j =>
  L.difOut_ap L.bfly2 (fun _ => hT 0) x x' hx j

theorem bt_mix4s (L : ApLaws Ap m0 G) : BflyT Ap (mix4s inv) 29 35 := fun x x' _ _ _ _ hx hT j =>
  L.difOut_ap (L.bfly4 inv) hT x x' hx j

theorem bt_mix4one (L : ApLaws Ap m0 G) : BflyT Ap (mix4one inv) 10 44 := fun x x' _ _ _ _ hx hT j =>
  L.difOut_ap (L.bfly4 inv) (w := 38) (fun i => L.mono (L.wpow_ap (L.cj_ap inv (hT 0)) (i.val + 1) (by omega)) le_rfl
    (by have := i.isLt; omega)) x x' hx j

theorem bt_mix8one (L : ApLaws Ap m0 G) : BflyT Ap (mix8one inv) 7 84 := fun x x' _ _ _ _ hx hT j =>
  L.difOut_ap (L.bfly8 inv) (w := 73) (fun i => L.mono (L.wpow_ap (L.cj_ap inv (hT 0)) (i.val + 1) (by omega)) le_rfl
    (by have := i.isLt; omega)) x x' hx j

theorem bt_mix8s (L : ApLaws Ap m0 G) : BflyT Ap (mix8s inv) 29 106 := by
  intro x x' T T' M k hx hT j
  have h2 := hT 1
  have h3 := hT 2
  have h4 := L.tw_mul h2 h2
  refine L.difOut_ap (L.bfly8 inv) (w := 95) (fun i => ?_) x x' hx j
  fin_cases i
  · exact L.mono (hT 0) le_rfl (by omega)
  · exact L.mono h2 le_rfl (by omega)
  · exact L.mono h3 le_rfl (by omega)
  · exact L.mono h4 le_rfl (by omega)
  · exact L.mono (L.tw_mul h2 h3) le_rfl (by omega)
  · exact L.mono (L.tw_mul h3 h3) le_rfl (by omega)
  · exact L.mono (L.tw_mul h3 h4) le_rfl (by omega)

theorem sum3_ap (L : ApLaws Ap m0 G) {x : Fin 3 → ℂ} {x' : Fin 3 → C} {w w'} (hx : ∀ j, Ap (x j) (x' j) M k)
    (hw : Ap w w' 1 29) (j : Fin 3) : Ap (sum3 x w j) (sum3 x' w' j) (3 * M) (k + 68) := by
  have h2 := L.tw_mul hw hw
  fin_cases j
  · exact L.mono (L.add (L.add (hx 0) (hx 1)) (hx 2)) (by linarith) (by omega)
  · exact L.mono (L.add (L.add (hx 0) (L.tw_mul hw (hx 1))) (L.tw_mul h2 (hx 2))) (by linarith) (by omega)
  · exact L.mono (L.add (L.add (hx 0) (L.tw_mul h2 (hx 1))) (L.tw_mul hw (hx 2))) (by linarith) (by omega)

theorem sum5_ap (L : ApLaws Ap m0 G) {x : Fin 5 → ℂ} {x' : Fin 5 → C} {w w'} (hx : ∀ j, Ap (x j) (x' j) M k)
    (hw : Ap w w' 1 29) (j : Fin 5) : Ap (sum5 x w j) (sum5 x' w' j) (5 * M) (k + 136) := by
  have h2 := L.tw_mul hw hw
  have h3 := L.tw_mul hw h2
  have h4 := L.tw_mul h2 h2
  fin_cases j
  · exact L.mono (L.add (L.add (L.add (L.add (hx 0) (hx 1)) (hx 2)) (hx 3)) (hx 4)) (by linarith) (by omega)
  · exact L.mono (L.add (L.add (L.add (L.add (hx 0) (L.tw_mul hw (hx 1))) (L.tw_mul h2 (hx 2))) (L.tw_mul h3 (hx 3)))
      (L.tw_mul h4 (hx 4))) (by linarith) (by omega)
  · exact L.mono (L.add (L.add (L.add (L.add (hx 0) (L.tw_mul h2 (hx 1))) (L.tw_mul h4 (hx 2))) (L.tw_mul hw (hx 3)))
      (L.tw_mul h3 (hx 4))) (by linarith) (by omega)
  · exact L.mono (L.add (L.add (L.add (L.add (hx 0) (L.tw_mul h3 (hx 1))) (L.tw_mul hw (hx 2))) (L.tw_mul h4 (hx 3)))
      (L.tw_mul h2 (hx 4))) (by linarith) (by omega)
  · exact L.mono (L.add (L.add (L.add (L.add (hx 0) (L.tw_mul h4 (hx 1))) (L.tw_mul h3 (hx 2))) (L.tw_mul h2 (hx 3)))
      (L.tw_mul hw (hx 4))) (by linarith) (by omega)

theorem bt_end3 (L : ApLaws Ap m0 G) : BflyT Ap mixEnd3 29 68 := fun _ _ _ _ M _ hx hT j => L.sum3_ap hx (hT 0) j
theorem bt_end5 (L : ApLaws Ap m0 G) : BflyT Ap mixEnd5 29 136 := fun _ _ _ _ M _ hx hT j => L.sum5_ap hx (hT 0) j

theorem bt_mix3 (L : ApLaws Ap m0 G) : BflyT Ap mix3 29 134 := by
  intro x x' T T' M k hx hT j
  have hs := L.sum3_ap hx (hT 0)
  have h1 := hT 1
  have h2 := L.tw_mul h1 h1
  fin_cases j
  · exact L.mono (hs 0) (by norm_num) (by omega)
  · exact L.mono (L.mul_tw (hs 1) h1) (by norm_num) (by omega)
  · exact L.mono (L.mul_tw (hs 2) h2) (by norm_num) (by omega)

theorem bt_mix5 (L : ApLaws Ap m0 G) : BflyT Ap mix5 29 268 := by
  intro x x' T T' M k hx hT j
  have hs := L.sum5_ap hx (hT 0)
  have h1 := hT 1
  have h2 := L.tw_mul h1 h1
  have h3 := L.tw_mul h1 h2
  have h4 := L.tw_mul h2 h2
  fin_cases j
  · exact L.mono (hs 0) (by norm_num) (by omega)
  · exact L.mono (L.mul_tw (hs 1) h1) (by norm_num) (by omega)
  · exact L.mono (L.mul_tw (hs 2) h2) (by norm_num) (by omega)
  · exact L.mono (L.mul_tw (hs 3) h3) (by norm_num) (by omega)
  · exact L.mono (L.mul_tw (hs 4) h4) (by norm_num) (by omega)

/-! ### general radix -/

theorem anySum_ap (L : ApLaws Ap m0 G) {p i : ℕ} {x : ℕ → ℂ} {x' : ℕ → C} {w : ℕ → ℂ} {w' : ℕ → C} {kz : ℕ}
    (hw : ∀ j < p, Ap (w j) (w' j) 1 29) (hx : ∀ j, Ap (x j) (x' j) M k) (hp : 0 < p) (hkz : k + 33 ≤ kz)
    (js : List ℕ) : ∀ {z z' Mz} {kz : ℕ}, k + 33 ≤ kz → Ap z z' Mz kz →
      Ap (anySum p i x w js z) (anySum p i x' w' js z') (Mz + js.length * M) (kz + js.length) := by
  induction js with
  | nil => intro z z' Mz kz _ hz; simpa [anySum] using hz
  | cons j js ih =>
    intro z z' Mz kz hk hz
    have := ih (kz := kz + 1) (by omega)
      (L.mono (L.add hz (L.mul_tw (hx j) (hw (i * j % p) (Nat.mod_lt _ hp)))) le_rfl (by omega))
    refine L.mono this ?_ ?_
    · simp only [List.length_cons]; push_cast; linarith
    · simp only [List.length_cons]; omega

theorem anyVal_ap (L : ApLaws Ap m0 G) {p i : ℕ} {x : ℕ → ℂ} {x' : ℕ → C} {w : ℕ → ℂ} {w' : ℕ → C}
    (hw : ∀ j < p, Ap (w j) (w' j) 1 29) (hx : ∀ j, Ap (x j) (x' j) M k) (hp : 0 < p) :
    Ap (anyVal p x w none i) (anyVal p x' w' none i) (p * M) (k + (p + 33)) := by
  unfold anyVal
  obtain ⟨q, rfl⟩ : ∃ q, p = q + 1 := ⟨p - 1, by omega⟩
  rw [List.range_eq_range', List.range'_succ]
  simp only [anySum]
  have h1 := L.zero_add (L.mul_tw (hx 0) (hw (i * 0 % (q + 1)) (Nat.mod_lt _ hp)))
  have := L.anySum_ap (i := i) hw hx hp le_rfl (List.range' (0 + 1) q) (by omega) h1
  refine L.mono this ?_ ?_
  · rw [List.length_range']; push_cast; linarith
  · rw [List.length_range']; omega

theorem anyG_none (L : ApLaws Ap m0 G) {p : ℕ} [NeZero p] {w : ℕ → ℂ} {w' : ℕ → C}
    (hw : ∀ j < p, Ap (w j) (w' j) 1 29) (q : ℕ) (xs : Fin p → ℂ) (xs' : Fin p → C) (hx : ∀ j, Ap (xs j) (xs' j) M k)
    (i : Fin p) : Ap (anyG p w none q xs i) (anyG p w' none q xs' i) (p * M) (k + (p + 33)) :=
  L.anyVal_ap hw (fun j => hx (Fin.ofNat p j)) (Nat.pos_of_ne_zero (NeZero.ne p))

theorem anyG_some (L : ApLaws Ap m0 G) {p : ℕ} [NeZero p] {w : ℕ → ℂ} {w' : ℕ → C} {t : ℕ → ℕ → ℂ} {t' : ℕ → ℕ → C}
    (hw : ∀ j < p, Ap (w j) (w' j) 1 29) (q : ℕ) (ht : ∀ i < p, Ap (t q i) (t' q i) 1 29) (xs : Fin p → ℂ)
    (xs' : Fin p → C) (hx : ∀ j, Ap (xs j) (xs' j) M k) (i : Fin p) :
    Ap (anyG p w (some t) q xs i) (anyG p w' (some t') q xs' i) (p * M) (k + (p + 66)) :=
  L.mono (L.mul_tw (L.anyG_none hw q xs xs' hx i) (ht i.val i.isLt)) le_rfl (by omega)

/-! ### recursions -/

section
variable {N n s : ℕ}

theorem mixIdx_le {a : ℕ} (h : a ≤ N) : mixIdx inv N a ≤ N := by
  unfold mixIdx; split <;> omega

theorem tabIdx_le {r : ℕ} (hN : N = r * (n / r) * s) {p i : ℕ} (hp : p < n / r) (hi : i ≤ r) : i * (s * p) ≤ N := by
  calc i * (s * p) ≤ r * (s * (n / r)) := Nat.mul_le_mul hi (Nat.mul_le_mul_left _ hp.le)
    _ = N := by rw [hN]; ring

theorem primeWeight_ge {p : ℕ} (h2 : p ≠ 2) (h3 : p ≠ 3) (h5 : p ≠ 5) : primeWeight p = p + 72 := by
  simp [primeWeight, h2, h3, h5]

/-- `n = r·(n/r)` and what follows -/
theorem split_of {r : ℕ} (hN : N = n * s) (h : n % r = 0) : N = r * (n / r) * s ∧ N = n / r * (r * s) ∧
    (n : ℝ) = r * (n / r : ℕ) := by
  have hm : n = r * (n / r) := (Nat.mul_div_cancel' (Nat.dvd_of_mod_eq_zero h)).symm
  refine ⟨by rw [← hm]; exact hN, ?_, by exact_mod_cast hm⟩
  rw [hN]
  conv_lhs => rw [hm]
  ring

/-- one core stage -/
theorem core_ap {r b w cost : ℕ} [NeZero r] {S : BFT r b} (hS : BflyT Ap S w cost) {m : ℕ} (hN : N = r * m * s)
    {wv : ℕ → ℂ} {wv' : ℕ → C} {tw : ℕ → Fin b → ℕ} (hT : ∀ p < m, ∀ i, Ap (wv (tw p i)) (wv' (tw p i)) 1 w)
    (hv : ∀ t < N, Ap (v t) (v' t) M k) :
    ∀ t < N, Ap (difPure r m s (coreG S wv tw) v t) (difPure r m s (coreG S wv' tw) v' t) (r * M) (k + cost) :=
  dif_stage hN (fun p hp xs xs' h i => hS xs xs' _ _ M k h (hT p hp) i) hv

/-- a core stage followed by the rest of the recursion -/
theorem seq_ap (L : ApLaws Ap m0 G) {r c c' : ℕ} {R : (ℕ → ℂ) → ℕ → ℂ} {R' : (ℕ → C) → ℕ → C} {u : ℕ → ℂ} {u' : ℕ → C}
    (hm : (n : ℝ) = r * (n / r : ℕ)) (h1 : ∀ t < N, Ap (u t) (u' t) (r * M) (k + c))
    (h2 : ∀ {v : ℕ → ℂ} {v' : ℕ → C} {M : ℝ} {k : ℕ}, (∀ t < N, Ap (v t) (v' t) M k) →
      ∀ t < N, Ap (R v t) (R' v' t) ((n / r : ℕ) * M) (k + c')) {d : ℕ} (hd : c + c' ≤ d) :
    ∀ t < N, Ap (R u t) (R' u' t) (n * M) (k + d) := fun t ht =>
  L.mono (h2 h1 t ht) (by rw [hm]; linarith) (by omega)

theorem mixAny_ap (L : ApLaws Ap m0 G) {wv : ℕ → ℂ} {wv' : ℕ → C} (hw : ∀ j ≤ N, Ap (wv j) (wv' j) 1 29) (n : ℕ) :
    ∀ {s : ℕ} {v : ℕ → ℂ} {v' : ℕ → C} {M : ℝ} {k : ℕ}, N = n * s → 2 ≤ n → n % 2 ≠ 0 → n % 3 ≠ 0 → n % 5 ≠ 0 →
      (∀ t < N, Ap (v t) (v' t) M k) →
      ∀ t < N, Ap (mixAnyRec inv N wv n s v t) (mixAnyRec inv N wv' n s v' t) (n * M) (k + (errWeight n - 6)) := by
  induction n using Nat.strong_induction_on with
  | _ n ih =>
    intro s v v' M k hN h2 n2 n3 n5 hv
    have hpr := Nat.minFac_prime (n := n) (by omega)
    have hdv := Nat.minFac_dvd n
    have hpw : errWeight n.minFac = n.minFac + 72 := by
      rw [errWeight_prime hpr]
      refine primeWeight_ge ?_ ?_ ?_
      · intro e; rw [e] at hdv; omega
      · intro e; rw [e] at hdv; omega
      · intro e; rw [e] at hdv; omega
    rw [mixAnyRec.eq_def inv N wv, mixAnyRec.eq_def inv N wv', dif_neg (by omega), dif_neg (by omega)]
    by_cases hp : n.minFac = n
    · rw [if_pos hp, if_pos hp]
      have hN' : N = n.minFac * 1 * s := by rw [hp, Nat.mul_one]; exact hN
      intro t ht
      have : NeZero n.minFac := ⟨hpr.ne_zero⟩
      have := dif_stage (Ap := Ap) (M2 := n.minFac * M) (k2 := k + (n.minFac + 33)) hN'
        (fun q _ xs xs' h i => L.anyG_none (w := fun a => wv (mixIdx inv N (s * a)))
          (w' := fun a => wv' (mixIdx inv N (s * a))) (fun j hj => hw _ (mixIdx_le (by
            calc s * j ≤ s * n.minFac := Nat.mul_le_mul_left _ hj.le
              _ = N := by rw [hN']; ring))) q xs xs' h i) hv t ht
      refine L.mono this (by rw [hp]) ?_
      conv_rhs => rw [← hp]
      rw [hpw]; omega
    · rw [if_neg hp, if_neg hp]
      obtain ⟨hN1, hN2, hm⟩ := split_of (r := n.minFac) hN (Nat.mod_eq_zero_of_dvd hdv)
      have : NeZero n.minFac := ⟨hpr.ne_zero⟩
      have hlt : n / n.minFac < n := Nat.div_lt_self (by omega) hpr.one_lt
      have hdd := Nat.div_mul_cancel hdv
      have hge : 2 ≤ n / n.minFac := by
        have h0 : 0 < n / n.minFac := Nat.div_pos (Nat.minFac_le (by omega)) hpr.pos
        by_contra hc
        have : n / n.minFac = 1 := by omega
        rw [this] at hdd
        omega
      have hdv2 : ∀ q, n % q ≠ 0 → n / n.minFac % q ≠ 0 := fun q hq h => hq (Nat.mod_eq_zero_of_dvd
        (Dvd.dvd.trans (Nat.dvd_of_mod_eq_zero h) (Nat.div_dvd_of_dvd hdv)))
      have hW := errWeight_div (n := n) (by omega) hdv
      have hW2 := errWeight_ge hge
      refine L.seq_ap (c := n.minFac + 66) (c' := errWeight (n / n.minFac) - 6) hm ?_
        (fun {v v' M k} hv => ih _ hlt (s := n.minFac * s) hN2 hge (hdv2 2 n2) (hdv2 3 n3) (hdv2 5 n5) hv) (by omega)
      refine dif_stage hN1 (fun q hq xs xs' h i => L.anyG_some
        (w := fun a => wv (mixIdx inv N (n / n.minFac * s * a))) (w' := fun a => wv' (mixIdx inv N (n / n.minFac * s * a)))
        (t := fun p i => wv (mixIdx inv N (i * (s * p)))) (t' := fun p i => wv' (mixIdx inv N (i * (s * p))))
        (fun j hj => hw _ (mixIdx_le ?_)) q (fun i hi => hw _ (mixIdx_le (tabIdx_le hN1 hq hi.le))) xs xs' h i) hv
      calc n / n.minFac * s * j ≤ n / n.minFac * s * n.minFac := Nat.mul_le_mul_left _ hj.le
        _ = N := by rw [hN2]; ring

theorem div_facts {r : ℕ} (hr : 2 ≤ r) (h2 : 2 ≤ n) (h : n % r = 0) (hne : n ≠ r) :
    n / r < n ∧ 2 ≤ n / r ∧ errWeight n = errWeight r + errWeight (n / r) ∧ 50 ≤ errWeight (n / r) := by
  have hdv := Nat.dvd_of_mod_eq_zero h
  have hdd := Nat.mul_div_cancel' hdv
  have h0 : 2 ≤ n / r := by
    by_contra hc
    rcases (show n / r = 0 ∨ n / r = 1 by
      generalize n / r = q at hc
      omega) with e | e <;> rw [e] at hdd <;> omega
  exact ⟨Nat.div_lt_self (by omega) (by omega), h0, errWeight_div (by omega) hdv, errWeight_ge h0⟩

theorem mixRec_ap (L : ApLaws Ap m0 G) (h31 : N ≤ 2 ^ 31) (n : ℕ) :
    ∀ {s : ℕ} {v : ℕ → ℂ} {v' : ℕ → C} {M : ℝ} {k : ℕ}, N = n * s → 2 ≤ n → 1 ≤ s →
      (∀ t < N, Ap (v t) (v' t) M k) →
      ∀ t < N, Ap (mixRec inv N (mixTabVal ℂ N) n s v t) (mixRec inv N (mixTabVal C N) n s v' t) (n * M)
        (k + (errWeight n - 6)) := by
  induction n using Nat.strong_induction_on with
  | _ n ih =>
    intro s v v' M k hN h2 hs hv
    have hN1 : 1 ≤ N := by rw [hN]; exact Nat.mul_pos (by omega) hs
    have hw : ∀ j ≤ N, Ap (mixTabVal ℂ N j) (mixTabVal C N j) 1 29 := fun j hj => L.mixTab hN1 h31 hj
    rw [mixRec.eq_def inv N (mixTabVal ℂ N), mixRec.eq_def inv N (mixTabVal C N), dif_neg (by omega), dif_neg (by omega)]
    by_cases h8 : n % 8 = 0
    · rw [if_pos h8, if_pos h8]
      by_cases hn : n = 8
      · rw [if_pos hn, if_pos hn]
        subst hn
        intro t ht
        exact L.mono (core_ap (bt_end (L.bfly8 inv)) (by omega) (fun p _ i => i.elim0) hv t ht) (by norm_num)
          (by rw [errWeight_8]; omega)
      · rw [if_neg hn, if_neg hn]
        obtain ⟨n1, n2, hm⟩ := split_of (r := 8) hN h8
        obtain ⟨hlt, hge, hW, hW2⟩ := div_facts (by omega) h2 h8 hn
        rw [errWeight_8] at hW
        refine L.seq_ap (c := 106) (c' := errWeight (n / 8) - 6) hm ?_
          (fun {v v' M k} hv => ih _ hlt n2 hge (by omega) hv) (by omega)
        by_cases h1 : 2 ≤ s
        · rw [if_pos h1, if_pos h1]
          exact core_ap L.bt_mix8s n1 (fun p hp i => hw _ (mixIdx_le (tabIdx_le n1 hp (by have := i.isLt; omega)))) hv
        · rw [if_neg h1, if_neg h1]
          intro t ht
          exact L.mono (core_ap L.bt_mix8one n1 (fun p hp i => L.mixTab8 hN1 h31 (by
            obtain rfl : s = 1 := by omega
            omega)) hv t ht) le_rfl (by omega)
    rw [if_neg h8, if_neg h8]
    by_cases h4 : n % 4 = 0
    · rw [if_pos h4, if_pos h4]
      by_cases hn : n = 4
      · rw [if_pos hn, if_pos hn]
        subst hn
        intro t ht
        exact L.mono (core_ap (bt_end (L.bfly4 inv)) (by omega) (fun p _ i => i.elim0) hv t ht) (by norm_num)
          (by rw [errWeight_4]; omega)
      · rw [if_neg hn, if_neg hn]
        obtain ⟨n1, n2, hm⟩ := split_of (r := 4) hN h4
        obtain ⟨hlt, hge, hW, hW2⟩ := div_facts (by omega) h2 h4 hn
        rw [errWeight_4] at hW
        refine L.seq_ap (c := 44) (c' := errWeight (n / 4) - 6) hm ?_
          (fun {v v' M k} hv => ih _ hlt n2 hge (by omega) hv) (by omega)
        by_cases h1 : 2 ≤ s
        · rw [if_pos h1, if_pos h1]
          intro t ht
          exact L.mono (core_ap L.bt_mix4s n1 (fun p hp i => hw _ (mixIdx_le (tabIdx_le n1 hp (by have := i.isLt; omega))))
            hv t ht) le_rfl (by omega)
        · rw [if_neg h1, if_neg h1]
          exact core_ap L.bt_mix4one n1 (fun p hp i => L.mixTab4 hN1 h31 (by
            obtain rfl : s = 1 := by omega
            omega)) hv
    rw [if_neg h4, if_neg h4]
    by_cases h22 : n % 2 = 0
    · rw [if_pos h22, if_pos h22]
      by_cases hn : n = 2
      · rw [if_pos hn, if_pos hn]
        subst hn
        intro t ht
        exact L.mono (core_ap (bt_end L.bfly2) (by omega) (fun p _ i => i.elim0) hv t ht) (by norm_num)
          (by rw [errWeight_2]; omega)
      · rw [if_neg hn, if_neg hn]
        obtain ⟨n1, n2, hm⟩ := split_of (r := 2) hN h22
        obtain ⟨hlt, hge, hW, hW2⟩ := div_facts (by omega) h2 h22 hn
        rw [errWeight_2] at hW
        refine L.seq_ap (c := 34) (c' := errWeight (n / 2) - 6) hm ?_
          (fun {v v' M k} hv => ih _ hlt n2 hge (by omega) hv) (by omega)
        exact core_ap L.bt_mix2 n1 (fun p hp i => hw _ (mixIdx_le (by
          have := tabIdx_le n1 hp (i := 1) (by omega)
          omega))) hv
    rw [if_neg h22, if_neg h22]
    by_cases h5 : n % 5 = 0
    · rw [if_pos h5, if_pos h5]
      by_cases hn : n = 5
      · rw [if_pos hn, if_pos hn]
        subst hn
        intro t ht
        exact L.mono (core_ap L.bt_end5 (by omega) (fun p _ i => hw _ (by split <;> omega)) hv t ht) (by norm_num)
          (by rw [errWeight_5]; omega)
      · rw [if_neg hn, if_neg hn]
        obtain ⟨n1, n2, hm⟩ := split_of (r := 5) hN h5
        obtain ⟨hlt, hge, hW, hW2⟩ := div_facts (by omega) h2 h5 hn
        rw [errWeight_5] at hW
        refine L.seq_ap (c := 268) (c' := errWeight (n / 5) - 6) hm ?_
          (fun {v v' M k} hv => ih _ hlt n2 hge (by omega) hv) (by omega)
        refine core_ap L.bt_mix5 n1 (fun p hp i => hw _ ?_) hv
        have := tabIdx_le n1 hp (i := 1) (by omega)
        split
        · split <;> omega
        · exact mixIdx_le (by omega)
    rw [if_neg h5, if_neg h5]
    by_cases h3 : n % 3 = 0
    · rw [if_pos h3, if_pos h3]
      by_cases hn : n = 3
      · rw [if_pos hn, if_pos hn]
        subst hn
        intro t ht
        exact L.mono (core_ap L.bt_end3 (by omega) (fun p _ i => hw _ (by split <;> omega)) hv t ht) (by norm_num)
          (by rw [errWeight_3]; omega)
      · rw [if_neg hn, if_neg hn]
        obtain ⟨n1, n2, hm⟩ := split_of (r := 3) hN h3
        obtain ⟨hlt, hge, hW, hW2⟩ := div_facts (by omega) h2 h3 hn
        rw [errWeight_3] at hW
        refine L.seq_ap (c := 134) (c' := errWeight (n / 3) - 6) hm ?_
          (fun {v v' M k} hv => ih _ hlt n2 hge (by omega) hv) (by omega)
        refine core_ap L.bt_mix3 n1 (fun p hp i => hw _ ?_) hv
        have := tabIdx_le n1 hp (i := 1) (by omega)
        split
        · split <;> omega
        · exact mixIdx_le (by omega)
    rw [if_neg h3, if_neg h3]
    exact L.mixAny_ap hw n hN h2 h22 h3 h5 hv

theorem scR_le_one (N : ℕ) (mode : ScaleMode) (h1 : 1 ≤ N) (h31 : N ≤ 2 ^ 31) : scR N mode ≤ 1 := (scR_range N mode h1 h31).2

theorem mixOut_ap (L : ApLaws Ap m0 G) (h2 : 2 ≤ N) (h31 : N ≤ 2 ^ 31) (hG : N * M ≤ G) (hm : m0 ≤ scR N mode * M)
    (hv : ∀ t < N, Ap (v t) (v' t) M k) :
    ∀ t < N, Ap (mixOut ℂ inv mode N v t) (mixOut C inv mode N v' t) (N * (scR N mode * M)) (k + errWeight N) := by
  intro t ht
  have h0 : 0 ≤ M := L.nonneg (hv t ht)
  have hN : (1:ℝ) ≤ N := by exact_mod_cast (by omega : 1 ≤ N)
  have hs := (scR_pos N mode (by omega)).le
  have h := L.mixRec_ap (inv := inv) h31 N (s := 1) (by omega) h2 le_rfl hv t ht
  have hsM : 0 ≤ scR N mode * M := by positivity
  have := L.mixScale N mode (by omega) h31 h hG (le_trans hm (by nlinarith))
  have hW := errWeight_ge h2
  exact L.mono this (by linarith) (by omega)

end

/-! ### all algorithms -/

theorem algoOut_ap (L : ApLaws Ap m0 G) {thr : Thr} {kind : AlgoKind} {n : ℕ} (hk : kind.Usable n) (h2 : 2 ≤ n)
    (h31 : n ≤ 2 ^ 31) (hG : n * M ≤ G) (hm : m0 ≤ scR n mode * M) (hv : ∀ t < n, Ap (v t) (v' t) M k) :
    ∀ t < n, Ap (algoOut ℂ thr kind inv mode n v t) (algoOut C thr kind inv mode n v' t) (n * (scR n mode * M))
      (k + errWeight n) := by
  intro t ht
  unfold algoOut
  cases kind with
  | stock dit rad =>
    obtain ⟨l, rfl, hl, _⟩ := hk
    exact L.mono (L.stockOut_ap rfl hl h31 hG hm hv t ht) le_rfl (by rw [errWeight_two_pow]; omega)
  | six =>
    obtain ⟨l, rfl, hl, _⟩ := hk
    simp only [logLoop_pow]
    exact L.mono (L.sixOut_ap rfl hl h31 hG hm hv t ht) le_rfl (by rw [errWeight_two_pow]; omega)
  | mixed => exact L.mixOut_ap h2 h31 hG hm hv t ht

theorem fftOut_ap (L : ApLaws Ap m0 G) {thr : Thr} {n : ℕ} (h2 : 2 ≤ n) (h31 : n ≤ 2 ^ 31) (hG : n * M ≤ G)
    (hm : m0 ≤ scR n mode * M) (hv : ∀ t < n, Ap (v t) (v' t) M k) :
    ∀ t < n, Ap (fftOut ℂ thr inv mode n v t) (fftOut C thr inv mode n v' t) (n * (scR n mode * M)) (k + errWeight n) := by
  unfold fftOut
  cases hd : dispatch (logOf n) with
  | none =>
    have := logOf_some (dispatch_none hd)
    omega
  | some kind => exact L.algoOut_ap (AlgoKind.usable_of_dispatch hd) h2 h31 hG hm hv

end ApLaws
end OTFFT
