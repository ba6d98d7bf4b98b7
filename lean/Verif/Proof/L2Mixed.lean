/-
Error analysis in the 2-norm: the mixed-radix transform, and all transforms.
-/
import Verif.Spec.Float
import Verif.Proof.ApMixed
import Verif.Proof.L2Out

namespace OTFFT

open Finset

/-! ### weights -/

theorem errWeight2_mul {a b : ℕ} (ha : a ≠ 0) (hb : b ≠ 0) : errWeight2 (a * b) = errWeight2 a + errWeight2 b := by
  unfold errWeight2
  rw [((Nat.perm_primeFactorsList_mul ha hb).map primeWeight2).sum_eq, List.map_append, List.sum_append]

theorem errWeight2_prime {p : ℕ} (hp : p.Prime) : errWeight2 p = primeWeight2 p := by
  unfold errWeight2
  rw [Nat.primeFactorsList_prime hp]
  simp

theorem errWeight2_two_pow (k : ℕ) : errWeight2 (2 ^ k) = 55 * k := by
  induction k with
  | zero => simp [errWeight2]
  | succ k ih =>
    rw [pow_succ, errWeight2_mul (by positivity) (by omega), ih, errWeight2_prime Nat.prime_two]
    simp [primeWeight2]
    omega

theorem errWeight2_div {n d : ℕ} (hn : n ≠ 0) (hd : d ∣ n) : errWeight2 n = errWeight2 d + errWeight2 (n / d) := by
  obtain ⟨c, rfl⟩ := hd
  have h1 : d ≠ 0 := by rintro rfl; simp at hn
  have h2 : c ≠ 0 := by rintro rfl; simp at hn
  rw [errWeight2_mul h1 h2, Nat.mul_div_cancel_left _ (Nat.pos_of_ne_zero h1)]

theorem primeWeight2_big {p : ℕ} (h2 : p ≠ 2) (h3 : p ≠ 3) (h5 : p ≠ 5) :
    primeWeight2 p = (p + 33) * (Nat.sqrt p + 1) + 40 := by
  simp [primeWeight2, h2, h3, h5]

theorem errWeight2_ge {n : ℕ} (hn : 2 ≤ n) : 55 ≤ errWeight2 n := by
  have hq := Nat.minFac_prime (n := n) (by omega)
  rw [errWeight2_div (n := n) (by omega) (Nat.minFac_dvd _), errWeight2_prime hq]
  have : 55 ≤ primeWeight2 n.minFac := by
    unfold primeWeight2
    split_ifs
    · omega
    · omega
    · omega
    · have : n.minFac + 33 ≤ (n.minFac + 33) * (Nat.sqrt n.minFac + 1) := Nat.le_mul_of_pos_right _ (by omega)
      omega
  omega

theorem errWeight2_2 : errWeight2 2 = 55 := errWeight2_two_pow 1
theorem errWeight2_4 : errWeight2 4 = 110 := errWeight2_two_pow 2
theorem errWeight2_8 : errWeight2 8 = 165 := errWeight2_two_pow 3
theorem errWeight2_3 : errWeight2 3 = 202 := by rw [errWeight2_prime Nat.prime_three]; rfl
theorem errWeight2_5 : errWeight2 5 = 540 := by rw [errWeight2_prime Nat.prime_five]; rfl

theorem div_facts2 {n r : ℕ} (hr : 2 ≤ r) (h2 : 2 ≤ n) (h : n % r = 0) (hne : n ≠ r) :
    n / r < n ∧ 2 ≤ n / r ∧ errWeight2 n = errWeight2 r + errWeight2 (n / r) ∧ 55 ≤ errWeight2 (n / r) := by
  obtain ⟨h1, h2', -, -⟩ := ApLaws.div_facts hr h2 h hne
  exact ⟨h1, h2', errWeight2_div (by omega) (Nat.dvd_of_mod_eq_zero h), errWeight2_ge h2'⟩

/-! ### sums with a bound for every operand -/

namespace ApLaws
variable {F C : Type} [DArith F] [CArith F C] {Ap : ℂ → C → ℝ → ℕ → Prop} {m0 G : ℝ} {k : ℕ}

theorem sum3M (L : ApLaws Ap m0 G) {x : Fin 3 → ℂ} {x' : Fin 3 → C} {M : Fin 3 → ℝ} {w w'}
    (hx : ∀ j, Ap (x j) (x' j) (M j) k) (hw : Ap w w' 1 29) (j : Fin 3) :
    Ap (sum3 x w j) (sum3 x' w' j) (∑ j, M j) (k + 68) := by
  have h2 := L.tw_mul hw hw
  rw [Fin.sum_univ_three]
  fin_cases j
  · exact L.mono (L.add (L.add (hx 0) (hx 1)) (hx 2)) (by linarith) (by omega)
  · exact L.mono (L.add (L.add (hx 0) (L.tw_mul hw (hx 1))) (L.tw_mul h2 (hx 2))) (by linarith) (by omega)
  · exact L.mono (L.add (L.add (hx 0) (L.tw_mul h2 (hx 1))) (L.tw_mul hw (hx 2))) (by linarith) (by omega)

theorem sum5M (L : ApLaws Ap m0 G) {x : Fin 5 → ℂ} {x' : Fin 5 → C} {M : Fin 5 → ℝ} {w w'}
    (hx : ∀ j, Ap (x j) (x' j) (M j) k) (hw : Ap w w' 1 29) (j : Fin 5) :
    Ap (sum5 x w j) (sum5 x' w' j) (∑ j, M j) (k + 136) := by
  have h2 := L.tw_mul hw hw
  have h3 := L.tw_mul hw h2
  have h4 := L.tw_mul h2 h2
  rw [Fin.sum_univ_five]
  fin_cases j
  · exact L.mono (L.add (L.add (L.add (L.add (hx 0) (hx 1)) (hx 2)) (hx 3)) (hx 4)) (by linarith) (by omega)
  · exact L.mono (L.add (L.add (L.add (L.add (hx 0) (L.tw_mul hw (hx 1))) (L.tw_mul h2 (hx 2))) (L.tw_mul h3 (hx 3)))
      (L.tw_mul h4 (hx 4))) (by linarith) (by omega)
  · exact L.mono (L.add (L.add (L.add (L.add (hx 0) (L.tw_mul h2 (hx 1))) (L.tw_mul h4 (hx 2))) (L.tw_mul hw (hx 3)))
      (L.tw_mul h3 (hx 4))) (by linarith) (by omega)
  · exact L.mono (L.add (L.add (L.add (L.add (hx 0) (L.tw_mul h3 (hx 1))) (L.tw_mul hw (hx 2))) (L.tw_mul h4 (hx 3)))
      (L.tw_mul h2 (hx 4))) (by linarith) (by omega)
  · exact L.mono (L.add (L.add (L.add (L.add (hx 0) (L.tw_mul h4 (hx 1))) (L.tw_mul h3 (hx 2))) (L.tw_mul h2 (hx 3)))
      (L.tw_mul hw (hx 4))) (by linarith) (by omega)

theorem anySumM (L : ApLaws Ap m0 G) {p i : ℕ} {x : ℕ → ℂ} {x' : ℕ → C} {M : ℕ → ℝ} {w : ℕ → ℂ} {w' : ℕ → C}
    (hw : ∀ j < p, Ap (w j) (w' j) 1 29) (hx : ∀ j, Ap (x j) (x' j) (M j) k) (hp : 0 < p)
    (js : List ℕ) : ∀ {z z' Mz} {kz : ℕ}, k + 33 ≤ kz → Ap z z' Mz kz →
      Ap (anySum p i x w js z) (anySum p i x' w' js z') (Mz + (js.map M).sum) (kz + js.length) := by
  induction js with
  | nil => intro z z' Mz kz _ hz; simpa [anySum] using hz
  | cons j js ih =>
    intro z z' Mz kz hk hz
    have := ih (kz := kz + 1) (by omega)
      (L.mono (L.add hz (L.mul_tw (hx j) (hw (i * j % p) (Nat.mod_lt _ hp)))) le_rfl (by omega))
    refine L.mono this ?_ ?_
    · simp only [List.map_cons, List.sum_cons]; linarith
    · simp only [List.length_cons]; omega

theorem anyM (L : ApLaws Ap m0 G) {p : ℕ} [NeZero p] {w : ℕ → ℂ} {w' : ℕ → C}
    (hw : ∀ j < p, Ap (w j) (w' j) 1 29) (q : ℕ) (xs : Fin p → ℂ) (xs' : Fin p → C) (M : Fin p → ℝ)
    (hx : ∀ j, Ap (xs j) (xs' j) (M j) k) (i : Fin p) :
    Ap (anyG p w none q xs i) (anyG p w' none q xs' i) (∑ j, M j) (k + (p + 33)) := by
  have hp : 0 < p := Nat.pos_of_ne_zero (NeZero.ne p)
  have hsum : ∑ j, M j = ((List.range p).map fun j => M (Fin.ofNat p j)).sum := by
    have : ((List.range p).map fun j => M (Fin.ofNat p j)).sum = ∑ j ∈ range p, M (Fin.ofNat p j) := rfl
    rw [this, Finset.sum_range]
    refine sum_congr rfl fun j _ => ?_
    rw [show Fin.ofNat p j.val = j from Fin.ext (Nat.mod_eq_of_lt j.isLt)]
  rw [hsum]
  obtain ⟨q', e⟩ : ∃ q, p = q + 1 := ⟨p - 1, by omega⟩
  have hl : List.range p = 0 :: List.range' 1 q' := by rw [e, List.range_eq_range', List.range'_succ]
  unfold anyG anyVal
  simp only [Option.map_none]
  rw [hl]
  simp only [anySum, List.map_cons, List.sum_cons]
  have h1 := L.zero_add (L.mul_tw (hx (Fin.ofNat p 0)) (hw (i.val * 0 % p) (Nat.mod_lt _ hp)))
  have := L.anySumM (i := i.val) (M := fun j => M (Fin.ofNat p j)) hw (fun j => hx (Fin.ofNat p j)) hp
    (List.range' 1 q') (by omega) h1
  refine L.mono this le_rfl ?_
  rw [List.length_range']
  omega

end ApLaws

namespace Flt.Op
variable {F : Type} [FArith F] {c : Flt F} [CArith F (Xmm F)] (L : ApLaws (C := Xmm F) c.Ap c.m0 c.G)
  {N n s m : ℕ} {mode : ScaleMode} {inv : Bool} {f g : ℝ}

/-! ### stage bodies -/

theorem root_eq {r q : ℕ} (hN : N = r * q) (hpos : 0 < N) :
    mixTabVal ℂ N (if inv then q * (r - 1) else q) = om inv r := by
  have e : mixTabVal ℂ N = omTab N := funext fun p => mixTabVal_C N p
  have hr : 0 < r := Nat.pos_of_ne_zero (by rintro rfl; omega)
  have hq : q ≤ N := by rw [hN]; exact Nat.le_mul_of_pos_left q hr
  rw [e, ← om_pow_div inv hN hpos, ← omTab_idx inv hpos hq]
  unfold mixIdx
  congr 1
  cases inv
  · rfl
  · simp only [if_true]
    rw [hN, Nat.mul_sub, Nat.mul_one, Nat.mul_comm q]

include L

/-- a DFT of length `r`, then twiddle factors on the right -/
theorem rightTw {r k w rho : ℕ} (hr : 0 < r) {S : (Fin r → ℂ) → Fin r → ℂ} {S' : (Fin r → Xmm F) → Fin r → Xmm F}
    (h : Range c r f g) (h1 : c.Op univ S S' (√r) (rho * k) f g) {t : Fin r → ℂ → ℂ} {t' : Fin r → Xmm F → Xmm F}
    (hT : ∀ i ∈ univ, ((∀ a, t i a = a) ∧ ∀ a, t' i a = a) ∨
      ∃ T T', c.Ap T T' 1 w ∧ (∀ a, t i a = mulpz a T) ∧ ∀ a, t' i a = mulpz a T') (hw : w ≤ c.K) :
    c.Op univ (fun xs i => t i (S xs i)) (fun xs i => t' i (S' xs i)) (√r) (rho * k + (w + 4)) f g := by
  have h2 := twiddleR (c := c) L (A := univ) (f := f) (g := √r * g)
    (by simpa using (show Range c (r * 1) f g by simpa using h).second hr) hT hw
  have := seq (m := 1) (x := 1) hr h1 (by rw [Nat.cast_one, Real.sqrt_one, mul_one]; exact h2)
  simp only [Nat.mul_one, mul_one] at this
  exact this

theorem sum3_op (h : Range c 3 f g) {w : ℂ} {w' : Xmm F} (hw : c.Ap w w' 1 29) (hz : w = om inv 3) :
    c.Op univ (fun xs : Fin 3 → ℂ => sum3 xs w) (fun xs => sum3 xs w') (√(3 : ℕ)) (2 * 68) f g := by
  refine bfly (inv := inv) (by omega) (by omega) (fun xs i => ?_) (fun x x' M hx i => ?_) h.low h.high
  · rw [sum3_C _ _ (by rw [hz]; exact om_pow_self inv (by omega)), hz]
  · simpa using L.sum3M hx hw i

theorem sum5_op (h : Range c 5 f g) {w : ℂ} {w' : Xmm F} (hw : c.Ap w w' 1 29) (hz : w = om inv 5) :
    c.Op univ (fun xs : Fin 5 → ℂ => sum5 xs w) (fun xs => sum5 xs w') (√(5 : ℕ)) (3 * 136) f g := by
  refine bfly (inv := inv) (by omega) (by omega) (fun xs i => ?_) (fun x x' M hx i => ?_) h.low h.high
  · rw [sum5_C _ _ (by rw [hz]; exact om_pow_self inv (by omega)), hz]
  · simpa using L.sum5M hx hw i

theorem any_op {p : ℕ} [NeZero p] (h : Range c p f g) {w : ℕ → ℂ} {w' : ℕ → Xmm F}
    (hw : ∀ j < p, c.Ap (w j) (w' j) 1 29) (hz : ∀ j < p, w j = om inv p ^ j) (q : ℕ) :
    c.Op univ (anyG p w none q) (anyG p w' none q) (√p) ((Nat.sqrt p + 1) * (p + 33)) f g := by
  have hp : 0 < p := Nat.pos_of_ne_zero (NeZero.ne p)
  refine bfly (inv := inv) hp (Nat.succ_le_succ_sqrt p |>.trans le_rfl |> fun h => le_trans (Nat.le_succ p) h)
    (fun xs i => ?_) (fun x x' M hx i => ?_) h.low h.high
  · unfold anyG anyVal
    simp only [Option.map_none]
    rw [anySum_eq i xs (om inv p) (om_pow_self inv hp) w hz]
  · simpa using L.anyM hw q x x' M hx i

theorem mix2_op (hK : 1000 ≤ c.K) (h : Range c 2 f g) {T : Fin 1 → ℂ} {T' : Fin 1 → Xmm F}
    (hT : ∀ i, c.Ap (T i) (T' i) 1 29) :
    c.Op univ (fun xs => mix2.fn xs T) (fun xs => mix2.fn xs T') (√(2 : ℕ)) 49 f g :=
  (difOut_op L (bf2_good false) L.bflyM2 (rho := 2) (by omega) h (w := 29) (fun _ => hT 0) (by omega)).mono le_rfl (by omega)
    le_rfl le_rfl

theorem mix4s_op (hK : 1000 ≤ c.K) (h : Range c 4 f g) {T : Fin 3 → ℂ} {T' : Fin 3 → Xmm F}
    (hT : ∀ i, c.Ap (T i) (T' i) 1 29) :
    c.Op univ (fun xs => (mix4s inv).fn xs T) (fun xs => (mix4s inv).fn xs T') (√(4 : ℕ)) 104 f g :=
  (difOut_op L (bf4_good inv) (L.bflyM4 inv) (rho := 2) (by omega) h (w := 29) hT (by omega)).mono le_rfl (by omega)
    le_rfl le_rfl

theorem mix4one_op (hK : 1000 ≤ c.K) (h : Range c 4 f g) {T : Fin 1 → ℂ} {T' : Fin 1 → Xmm F}
    (hT : ∀ i, c.Ap (T i) (T' i) 1 10) :
    c.Op univ (fun xs => (mix4one inv).fn xs T) (fun xs => (mix4one inv).fn xs T') (√(4 : ℕ)) 104 f g :=
  (difOut_op L (bf4_good inv) (L.bflyM4 inv) (rho := 2) (by omega) h (w := 38)
    (fun i => L.mono (L.wpow_ap (L.cj_ap inv (hT 0)) (i.val + 1) (by omega)) le_rfl (by have := i.isLt; omega))
    (by omega)).mono le_rfl (by omega) le_rfl le_rfl

theorem mix8s_op (hK : 1000 ≤ c.K) (h : Range c 8 f g) {T : Fin 3 → ℂ} {T' : Fin 3 → Xmm F}
    (hT : ∀ i, c.Ap (T i) (T' i) 1 29) :
    c.Op univ (fun xs => (mix8s inv).fn xs T) (fun xs => (mix8s inv).fn xs T') (√(8 : ℕ)) 159 f g := by
  have h2 := hT 1
  have h3 := hT 2
  have h4 := L.tw_mul h2 h2
  refine (difOut_op L (bf8_good inv) (L.bflyM8 inv) (rho := 3) (by omega) h (w := 95) (fun i => ?_) (by omega)).mono le_rfl
    (by omega) le_rfl le_rfl
  fin_cases i
  · exact L.mono (hT 0) le_rfl (by omega)
  · exact L.mono h2 le_rfl (by omega)
  · exact L.mono h3 le_rfl (by omega)
  · exact L.mono h4 le_rfl (by omega)
  · exact L.mono (L.tw_mul h2 h3) le_rfl (by omega)
  · exact L.mono (L.tw_mul h3 h3) le_rfl (by omega)
  · exact L.mono (L.tw_mul h3 h4) le_rfl (by omega)

theorem mix8one_op (hK : 1000 ≤ c.K) (h : Range c 8 f g) {T : Fin 1 → ℂ} {T' : Fin 1 → Xmm F}
    (hT : ∀ i, c.Ap (T i) (T' i) 1 7) :
    c.Op univ (fun xs => (mix8one inv).fn xs T) (fun xs => (mix8one inv).fn xs T') (√(8 : ℕ)) 159 f g :=
  (difOut_op L (bf8_good inv) (L.bflyM8 inv) (rho := 3) (by omega) h (w := 73)
    (fun i => L.mono (L.wpow_ap (L.cj_ap inv (hT 0)) (i.val + 1) (by omega)) le_rfl (by have := i.isLt; omega))
    (by omega)).mono le_rfl (by omega) le_rfl le_rfl

theorem mix3_op (hK : 1000 ≤ c.K) (h : Range c 3 f g) {T : Fin 2 → ℂ} {T' : Fin 2 → Xmm F}
    (hT : ∀ i, c.Ap (T i) (T' i) 1 29) (hz : T 0 = om inv 3) :
    c.Op univ (fun xs => mix3.fn xs T) (fun xs => mix3.fn xs T') (√(3 : ℕ)) 202 f g := by
  have h1 := hT 1
  have h2 := L.tw_mul h1 h1
  have := rightTw L (w := 62) (by omega) h (sum3_op L h (hT 0) hz)
    (t := ![fun a => a, fun a => mulpz a (T 1), fun a => mulpz a (mulpz (T 1) (T 1))])
    (t' := ![fun a => a, fun a => mulpz a (T' 1), fun a => mulpz a (mulpz (T' 1) (T' 1))]) (fun i _ => by
      fin_cases i
      · exact Or.inl ⟨fun _ => rfl, fun _ => rfl⟩
      · exact Or.inr ⟨_, _, L.mono h1 le_rfl (by omega), fun _ => rfl, fun _ => rfl⟩
      · exact Or.inr ⟨_, _, L.mono h2 le_rfl (by omega), fun _ => rfl, fun _ => rfl⟩) (by omega)
  refine Op.mono ?_ le_rfl (by omega) le_rfl le_rfl (k := 2 * 68 + (62 + 4))
  convert this using 2 with xs xs
  · funext i; fin_cases i <;> rfl
  · funext i; fin_cases i <;> rfl

theorem mix5_op (hK : 1000 ≤ c.K) (h : Range c 5 f g) {T : Fin 2 → ℂ} {T' : Fin 2 → Xmm F}
    (hT : ∀ i, c.Ap (T i) (T' i) 1 29) (hz : T 0 = om inv 5) :
    c.Op univ (fun xs => mix5.fn xs T) (fun xs => mix5.fn xs T') (√(5 : ℕ)) 540 f g := by
  have h1 := hT 1
  have h2 := L.tw_mul h1 h1
  have h3 := L.tw_mul h1 h2
  have h4 := L.tw_mul h2 h2
  have := rightTw L (w := 128) (by omega) h (sum5_op L h (hT 0) hz)
    (t := ![fun a => a, fun a => mulpz a (T 1), fun a => mulpz a (mulpz (T 1) (T 1)),
      fun a => mulpz a (mulpz (T 1) (mulpz (T 1) (T 1))), fun a => mulpz a (mulpz (mulpz (T 1) (T 1)) (mulpz (T 1) (T 1)))])
    (t' := ![fun a => a, fun a => mulpz a (T' 1), fun a => mulpz a (mulpz (T' 1) (T' 1)),
      fun a => mulpz a (mulpz (T' 1) (mulpz (T' 1) (T' 1))),
      fun a => mulpz a (mulpz (mulpz (T' 1) (T' 1)) (mulpz (T' 1) (T' 1)))]) (fun i _ => by
      fin_cases i
      · exact Or.inl ⟨fun _ => rfl, fun _ => rfl⟩
      · exact Or.inr ⟨_, _, L.mono h1 le_rfl (by omega), fun _ => rfl, fun _ => rfl⟩
      · exact Or.inr ⟨_, _, L.mono h2 le_rfl (by omega), fun _ => rfl, fun _ => rfl⟩
      · exact Or.inr ⟨_, _, L.mono h3 le_rfl (by omega), fun _ => rfl, fun _ => rfl⟩
      · exact Or.inr ⟨_, _, L.mono h4 le_rfl (by omega), fun _ => rfl, fun _ => rfl⟩) (by omega)
  refine Op.mono ?_ le_rfl (by omega) le_rfl le_rfl (k := 3 * 136 + (128 + 4))
  convert this using 2 with xs xs
  · funext i; fin_cases i <;> rfl
  · funext i; fin_cases i <;> rfl

theorem anyTw_op (hK : 1000 ≤ c.K) {p : ℕ} [NeZero p] (h : Range c p f g) {w : ℕ → ℂ} {w' : ℕ → Xmm F}
    (hw : ∀ j < p, c.Ap (w j) (w' j) 1 29) (hz : ∀ j < p, w j = om inv p ^ j) (q : ℕ) {t : ℕ → ℕ → ℂ} {t' : ℕ → ℕ → Xmm F}
    (ht : ∀ i < p, c.Ap (t q i) (t' q i) 1 29) :
    c.Op univ (anyG p w (some t) q) (anyG p w' (some t') q) (√p) ((Nat.sqrt p + 1) * (p + 33) + 33) f g :=
  rightTw L (w := 29) (Nat.pos_of_ne_zero (NeZero.ne p)) h (any_op L h hw hz q)
    (t := fun i a => mulpz a (t q i.val)) (t' := fun i a => mulpz a (t' q i.val))
    (fun i _ => Or.inr ⟨_, _, ht i.val i.isLt, fun _ => rfl, fun _ => rfl⟩) (by omega)

/-! ### recursions -/

omit L in
/-- a core stage followed by the rest -/
theorem seqDiv {r k1 k2 k : ℕ} {S1 S2 : (ℕ → ℂ) → ℕ → ℂ} {S1' S2' : (ℕ → Xmm F) → ℕ → Xmm F} (hr : 0 < r) (hm : n = r * (n / r))
    (h1 : c.Op (range N) S1 S1' (√r) k1 f g) (h2 : c.Op (range N) S2 S2' (√(n / r : ℕ)) k2 f (√r * g)) (hk : k1 + k2 ≤ k) :
    c.Op (range N) (fun v => S2 (S1 v)) (fun v => S2' (S1' v)) (√n) k f g := by
  have := seq (x := 1) hr h1 (by rw [mul_one]; exact h2)
  rw [← hm, mul_one] at this
  exact this.mono le_rfl hk le_rfl le_rfl

theorem mixAny_op (hK : 1000 ≤ c.K) (hN1 : 1 ≤ N) (h31 : N ≤ 2 ^ 31) (n : ℕ) :
    ∀ {s : ℕ} {f g : ℝ}, N = n * s → 2 ≤ n → n % 2 ≠ 0 → n % 3 ≠ 0 → n % 5 ≠ 0 → Range c n f g →
      c.Op (range N) (mixAnyRec inv N (mixTabVal ℂ N) n s) (mixAnyRec inv N (mixTabVal (Xmm F) N) n s) (√n)
        (errWeight2 n - 6) f g := by
  have hw : ∀ j ≤ N, c.Ap (mixTabVal ℂ N j) (mixTabVal (Xmm F) N j) 1 29 := fun j hj => L.mixTab hN1 h31 hj
  have hom : ∀ a ≤ N, mixTabVal ℂ N (mixIdx inv N a) = om inv N ^ a := fun a ha => by
    rw [show mixTabVal ℂ N = omTab N from funext fun p => mixTabVal_C N p, omTab_idx inv hN1 ha]
  induction n using Nat.strong_induction_on with
  | _ n ih =>
    intro s f g hN h2 n2 n3 n5 h
    have hpr := Nat.minFac_prime (n := n) (by omega)
    have hdv := Nat.minFac_dvd n
    have hpw : errWeight2 n.minFac = (n.minFac + 33) * (Nat.sqrt n.minFac + 1) + 40 := by
      rw [errWeight2_prime hpr]
      refine primeWeight2_big ?_ ?_ ?_
      · intro e; rw [e] at hdv; omega
      · intro e; rw [e] at hdv; omega
      · intro e; rw [e] at hdv; omega
    have e1 : mixAnyRec inv N (mixTabVal ℂ N) n s = fun v => mixAnyRec inv N (mixTabVal ℂ N) n s v := rfl
    have e2 : mixAnyRec inv N (mixTabVal (Xmm F) N) n s = fun v => mixAnyRec inv N (mixTabVal (Xmm F) N) n s v := rfl
    rw [e1, e2]
    simp only [mixAnyRec.eq_def inv N _ n s, dif_neg (show ¬ n < 2 by omega)]
    have hNZ : NeZero n.minFac := ⟨hpr.ne_zero⟩
    rw [Nat.mul_comm] at hpw
    by_cases hp : n.minFac = n
    · simp only [if_pos hp]
      have hN' : N = n.minFac * 1 * s := by rw [hp, Nat.mul_one]; exact hN
      have hjs : ∀ j < n.minFac, s * j ≤ N := fun j hj => by
        calc s * j ≤ s * n.minFac := Nat.mul_le_mul_left _ hj.le
          _ = N := by rw [hN']; ring
      have a := difPure_op (c := c) (N := N) (f := f) (g := g) hN' (by omega) (fun q _ => any_op L (inv := inv)
        (w := fun a => mixTabVal ℂ N (mixIdx inv N (s * a))) (w' := fun a => mixTabVal (Xmm F) N (mixIdx inv N (s * a)))
        (by rw [hp]; exact h) (fun j hj => hw _ (ApLaws.mixIdx_le (hjs j hj))) (fun j hj => by
          rw [hom _ (hjs j hj), pow_mul, om_pow_div inv (r := n.minFac) (by rw [hN']; ring) (by omega)]) q)
      refine a.mono (by rw [hp]) ?_ le_rfl le_rfl
      conv_rhs => rw [← hp]
      rw [hpw]; omega
    · simp only [if_neg hp]
      obtain ⟨hN1', hN2, -⟩ := ApLaws.split_of (r := n.minFac) hN (Nat.mod_eq_zero_of_dvd hdv)
      have hm : n = n.minFac * (n / n.minFac) := (Nat.mul_div_cancel' hdv).symm
      obtain ⟨hlt, hge, hW, hW2⟩ := div_facts2 hpr.two_le h2 (Nat.mod_eq_zero_of_dvd hdv) (Ne.symm hp)
      have hdv2 : ∀ q, n % q ≠ 0 → n / n.minFac % q ≠ 0 := fun q hq h => hq (Nat.mod_eq_zero_of_dvd
        (Dvd.dvd.trans (Nat.dvd_of_mod_eq_zero h) (Nat.div_dvd_of_dvd hdv)))
      have h' : Range c (n.minFac * (n / n.minFac)) f g := by rw [← hm]; exact h
      have hjs : ∀ j < n.minFac, n / n.minFac * s * j ≤ N := fun j hj => by
        calc n / n.minFac * s * j ≤ n / n.minFac * s * n.minFac := Nat.mul_le_mul_left _ hj.le
          _ = N := by rw [hN2]; ring
      refine seqDiv (k1 := (Nat.sqrt n.minFac + 1) * (n.minFac + 33) + 33) (k2 := errWeight2 (n / n.minFac) - 6) hpr.pos hm ?_
        (ih _ hlt (s := n.minFac * s) hN2 hge (hdv2 2 n2) (hdv2 3 n3) (hdv2 5 n5) (h'.second hpr.pos)) (by omega)
      exact difPure_op hN1' (by omega) (fun q hq => anyTw_op L (inv := inv) hK
        (w := fun a => mixTabVal ℂ N (mixIdx inv N (n / n.minFac * s * a)))
        (w' := fun a => mixTabVal (Xmm F) N (mixIdx inv N (n / n.minFac * s * a)))
        (t := fun p i => mixTabVal ℂ N (mixIdx inv N (i * (s * p))))
        (t' := fun p i => mixTabVal (Xmm F) N (mixIdx inv N (i * (s * p)))) (h'.first (by omega))
        (fun j hj => hw _ (ApLaws.mixIdx_le (hjs j hj))) (fun j hj => by
          rw [hom _ (hjs j hj), pow_mul, om_pow_div inv (r := n.minFac) (by rw [hN2]; ring) (by omega)]) q
        (fun i hi => hw _ (ApLaws.mixIdx_le (ApLaws.tabIdx_le hN1' hq hi.le))))

omit L in
/-- one core stage -/
theorem core_op {r b k : ℕ} [NeZero r] {S : BFT r b} (hN : N = r * m * s) (hN1 : 1 ≤ N) {wv : ℕ → ℂ} {wv' : ℕ → Xmm F}
    {tw : ℕ → Fin b → ℕ} {x : ℝ} (h : ∀ p < m, c.Op univ (fun xs => S.fn xs fun i => wv (tw p i))
      (fun xs => S.fn xs fun i => wv' (tw p i)) x k f g) :
    c.Op (range N) (difPure r m s (coreG S wv tw)) (difPure r m s (coreG S wv' tw)) x k f g :=
  difPure_op hN hN1 h

omit L in
theorem endBF_op {r cost rho k : ℕ} [NeZero r] {B : BF r} (hB : BFGood B inv) (hM : ApLaws.BflyM c.Ap B cost)
    (hrho : r ≤ rho * rho) (hN : N = r * 1 * s) (hN1 : 1 ≤ N) (h : Range c r f g) (hk : rho * cost ≤ k) {wv : ℕ → ℂ}
    {wv' : ℕ → Xmm F} {tw : ℕ → Fin 0 → ℕ} :
    c.Op (range N) (difPure r 1 s (coreG (mixEndBF B) wv tw)) (difPure r 1 s (coreG (mixEndBF B) wv' tw)) (√r) k f g :=
  core_op hN hN1 (fun _ _ => (bf_op hB hM hrho h).mono le_rfl hk le_rfl le_rfl)

theorem mixRec_op (hK : 1000 ≤ c.K) (h31 : N ≤ 2 ^ 31) (n : ℕ) :
    ∀ {s : ℕ} {f g : ℝ}, N = n * s → 2 ≤ n → 1 ≤ s → Range c n f g →
      c.Op (range N) (mixRec inv N (mixTabVal ℂ N) n s) (mixRec inv N (mixTabVal (Xmm F) N) n s) (√n)
        (errWeight2 n - 6) f g := by
  induction n using Nat.strong_induction_on with
  | _ n ih =>
    intro s f g hN h2 hs h
    have hN1 : 1 ≤ N := by rw [hN]; exact Nat.mul_pos (by omega) hs
    have hw : ∀ j ≤ N, c.Ap (mixTabVal ℂ N j) (mixTabVal (Xmm F) N j) 1 29 := fun j hj => L.mixTab hN1 h31 hj
    have core : ∀ {r k : ℕ} {S1 : (ℕ → ℂ) → ℕ → ℂ} {S1' : (ℕ → Xmm F) → ℕ → Xmm F}, 2 ≤ r → n % r = 0 → n ≠ r →
        k ≤ errWeight2 r → (N = r * (n / r) * s → Range c r f g → c.Op (range N) S1 S1' (√r) k f g) →
        c.Op (range N) (fun v => mixRec inv N (mixTabVal ℂ N) (n / r) (r * s) (S1 v))
          (fun v => mixRec inv N (mixTabVal (Xmm F) N) (n / r) (r * s) (S1' v)) (√n) (errWeight2 n - 6) f g := by
      intro r k S1 S1' hr hd hne hk h1
      obtain ⟨n1, n2, -⟩ := ApLaws.split_of (r := r) hN hd
      obtain ⟨hlt, hge, hW, hW2⟩ := div_facts2 hr h2 hd hne
      have hm : n = r * (n / r) := (Nat.mul_div_cancel' (Nat.dvd_of_mod_eq_zero hd)).symm
      have h' : Range c (r * (n / r)) f g := by rw [← hm]; exact h
      exact seqDiv (by omega) hm (h1 n1 (h'.first (by omega)))
        (ih _ hlt n2 hge (Nat.mul_pos (by omega) hs) (h'.second (by omega))) (by omega)
    have e1 : mixRec inv N (mixTabVal ℂ N) n s = fun v => mixRec inv N (mixTabVal ℂ N) n s v := rfl
    have e2 : mixRec inv N (mixTabVal (Xmm F) N) n s = fun v => mixRec inv N (mixTabVal (Xmm F) N) n s v := rfl
    rw [e1, e2]
    simp only [mixRec.eq_def inv N _ n s, dif_neg (show ¬ n < 2 by omega)]
    by_cases h8 : n % 8 = 0
    · simp only [if_pos h8]
      by_cases hn : n = 8
      · simp only [if_pos hn]
        subst hn
        exact endBF_op (bf8_good inv) (L.bflyM8 inv) (rho := 3) (by omega) (by omega) hN1 h (by rw [errWeight2_8]; omega)
      · simp only [if_neg hn]
        by_cases h1 : 2 ≤ s
        · simp only [if_pos h1]
          refine core (k := 159) (by omega) h8 hn (by rw [errWeight2_8]; omega) fun n1 hR => ?_
          exact core_op n1 hN1 (fun p hp => mix8s_op L hK hR (fun i => hw _ (ApLaws.mixIdx_le
            (ApLaws.tabIdx_le n1 hp (by have := i.isLt; omega)))))
        · simp only [if_neg h1]
          refine core (k := 159) (by omega) h8 hn (by rw [errWeight2_8]; omega) fun n1 hR => ?_
          exact core_op n1 hN1 (fun p hp => mix8one_op L hK hR (fun i => L.mixTab8 hN1 h31 (by
            obtain rfl : s = 1 := by omega
            omega)))
    simp only [if_neg h8]
    by_cases h4 : n % 4 = 0
    · simp only [if_pos h4]
      by_cases hn : n = 4
      · simp only [if_pos hn]
        subst hn
        exact endBF_op (bf4_good inv) (L.bflyM4 inv) (rho := 2) (by omega) (by omega) hN1 h (by rw [errWeight2_4]; omega)
      · simp only [if_neg hn]
        by_cases h1 : 2 ≤ s
        · simp only [if_pos h1]
          refine core (k := 104) (by omega) h4 hn (by rw [errWeight2_4]; omega) fun n1 hR => ?_
          exact core_op n1 hN1 (fun p hp => mix4s_op L hK hR (fun i => hw _ (ApLaws.mixIdx_le
            (ApLaws.tabIdx_le n1 hp (by have := i.isLt; omega)))))
        · simp only [if_neg h1]
          refine core (k := 104) (by omega) h4 hn (by rw [errWeight2_4]; omega) fun n1 hR => ?_
          exact core_op n1 hN1 (fun p hp => mix4one_op L hK hR (fun i => L.mixTab4 hN1 h31 (by
            obtain rfl : s = 1 := by omega
            omega)))
    simp only [if_neg h4]
    by_cases h22 : n % 2 = 0
    · simp only [if_pos h22]
      by_cases hn : n = 2
      · simp only [if_pos hn]
        subst hn
        exact endBF_op (bf2_good inv) L.bflyM2 (rho := 2) (by omega) (by omega) hN1 h (by rw [errWeight2_2]; omega)
      · simp only [if_neg hn]
        refine core (k := 49) (by omega) h22 hn (by rw [errWeight2_2]; omega) fun n1 hR => ?_
        exact core_op n1 hN1 (fun p hp => mix2_op L hK hR (fun i => hw _ (ApLaws.mixIdx_le (by
          have := ApLaws.tabIdx_le n1 hp (i := 1) (by omega)
          omega))))
    simp only [if_neg h22]
    by_cases h5 : n % 5 = 0
    · simp only [if_pos h5]
      by_cases hn : n = 5
      · simp only [if_pos hn]
        subst hn
        refine core_op (k := errWeight2 5 - 6) (by omega) hN1 (fun p _ => ?_)
        refine (sum5_op L (inv := inv) h (hw _ (by split <;> omega)) ?_).mono le_rfl (by rw [errWeight2_5]; omega) le_rfl le_rfl
        have := root_eq (inv := inv) hN hN1
        rw [Nat.mul_comm s] at this
        exact this
      · simp only [if_neg hn]
        refine core (k := 540) (by omega) h5 hn (by rw [errWeight2_5]) fun n1 hR => ?_
        refine core_op n1 hN1 (fun p hp => mix5_op L (inv := inv) hK hR (fun i => hw _ ?_) ?_)
        · have := ApLaws.tabIdx_le n1 hp (i := 1) (by omega)
          split
          · split <;> omega
          · exact ApLaws.mixIdx_le (by omega)
        · exact root_eq (inv := inv) (r := 5) (q := N / 5) (by
            rw [Nat.mul_div_cancel']; exact ⟨n / 5 * s, by rw [n1]; ring⟩) hN1
    simp only [if_neg h5]
    by_cases h3 : n % 3 = 0
    · simp only [if_pos h3]
      by_cases hn : n = 3
      · simp only [if_pos hn]
        subst hn
        refine core_op (k := errWeight2 3 - 6) (by omega) hN1 (fun p _ => ?_)
        refine (sum3_op L (inv := inv) h (hw _ (by split <;> omega)) ?_).mono le_rfl (by rw [errWeight2_3]; omega) le_rfl le_rfl
        have := root_eq (inv := inv) hN hN1
        rw [Nat.mul_comm s] at this
        exact this
      · simp only [if_neg hn]
        refine core (k := 202) (by omega) h3 hn (by rw [errWeight2_3]) fun n1 hR => ?_
        refine core_op n1 hN1 (fun p hp => mix3_op L (inv := inv) hK hR (fun i => hw _ ?_) ?_)
        · have := ApLaws.tabIdx_le n1 hp (i := 1) (by omega)
          split
          · split <;> omega
          · exact ApLaws.mixIdx_le (by omega)
        · exact root_eq (inv := inv) (r := 3) (q := N / 3) (by
            rw [Nat.mul_div_cancel']; exact ⟨n / 3 * s, by rw [n1]; ring⟩) hN1
    simp only [if_neg h3]
    exact mixAny_op L hK hN1 h31 n hN h2 h22 h3 h5 h

theorem mixOut_op (hK : 1000 ≤ c.K) (h2 : 2 ≤ N) (h31 : N ≤ 2 ^ 31) (h : Range c N f g) (hm : c.m0 ≤ scR N mode * f) :
    c.Op (range N) (mixOut ℂ inv mode N) (mixOut (Xmm F) inv mode N) (√N * scR N mode) (errWeight2 N) f g := by
  have a := mixRec_op L (inv := inv) hK h31 N (s := 1) (by omega) h2 le_rfl h
  have b := mixScale_op (A := range N) (mode := mode) L (by omega) h31 (f := f) (g := √N * g)
    ((show Range c (N * 1) f g by simpa using h).second (by omega)) hm
  have hW := errWeight2_ge h2
  exact (comp a b (by have := h.f0; have := one_le_sqrt (n := N) (by omega); nlinarith) le_rfl).mono le_rfl (by omega) le_rfl
    le_rfl

/-! ### all algorithms -/

theorem algoOut_op (hK : 1000 ≤ c.K) {thr : Thr} {kind : AlgoKind} {n : ℕ} (hk : kind.Usable n) (h2 : 2 ≤ n)
    (h31 : n ≤ 2 ^ 31) (h : Range c n f g) (hm : c.m0 ≤ scR n mode * f) :
    c.Op (range n) (algoOut ℂ thr kind inv mode n) (algoOut (Xmm F) thr kind inv mode n) (√n * scR n mode)
      (errWeight2 n) f g := by
  unfold algoOut
  cases kind with
  | stock dit rad =>
    obtain ⟨l, rfl, hl, _⟩ := hk
    rw [errWeight2_two_pow]
    exact stockOut_op L hK rfl hl h31 h hm
  | six =>
    obtain ⟨l, rfl, hl, _⟩ := hk
    simp only [logLoop_pow]
    rw [errWeight2_two_pow]
    exact sixOut_op L hK rfl hl h31 h hm
  | mixed => exact mixOut_op L hK h2 h31 h hm

theorem fftOut_op (hK : 1000 ≤ c.K) {thr : Thr} {n : ℕ} (h2 : 2 ≤ n) (h31 : n ≤ 2 ^ 31) (h : Range c n f g)
    (hm : c.m0 ≤ scR n mode * f) :
    c.Op (range n) (fftOut ℂ thr inv mode n) (fftOut (Xmm F) thr inv mode n) (√n * scR n mode) (errWeight2 n) f g := by
  unfold fftOut
  cases hd : dispatch (logOf n) with
  | none =>
    have := logOf_some (dispatch_none hd)
    omega
  | some kind => exact algoOut_op L hK (AlgoKind.usable_of_dispatch hd) h2 h31 h hm

end Flt.Op
end OTFFT
