/-
Relations on complex numbers preserved by the operations the transforms apply to data are preserved by the transforms.
-/
import Verif.Proof.ApReal
import Verif.Proof.BlueObj

namespace OTFFT

/-- The part that complex transforms use: `R` is preserved by the linear operations applied to data. The relations are
between a value of one arithmetic and two of another one: factors from tables and constants are the same for these two, and
arbitrary otherwise. -/
structure LinLaws {E A F C : Type} [DArith E] [CArith E A] [DArith F] [CArith F C] (R : A → C → C → Prop) : Prop where
  add : ∀ {c d a a' b b'}, R c a a' → R d b b' → R (addpz c d) (addpz a b) (addpz a' b')
  sub : ∀ {c d a a' b b'}, R c a a' → R d b b' → R (subpz c d) (subpz a b) (subpz a' b')
  jx : ∀ {c a a'}, R c a a' → R (jxpz c) (jxpz a) (jxpz a')
  v8 : ∀ {c a a'}, R c a a' → R (v8xpz c) (v8xpz a) (v8xpz a')
  w8 : ∀ {c a a'}, R c a a' → R (w8xpz c) (w8xpz a) (w8xpz a')
  h1 : ∀ {c a a'}, R c a a' → R (h1xpz c) (h1xpz a) (h1xpz a')
  h3 : ∀ {c a a'}, R c a a' → R (h3xpz c) (h3xpz a) (h3xpz a')
  hf : ∀ {c a a'}, R c a a' → R (hfxpz c) (hfxpz a) (hfxpz a')
  hd : ∀ {c a a'}, R c a a' → R (hdxpz c) (hdxpz a) (hdxpz a')
  mulL : ∀ {c a a'} (k : A) (w : C), R c a a' → R (mulpz k c) (mulpz w a) (mulpz w a')
  scl : ∀ {c a a'} (k : E) (w : F), R c a a' → R (scl k c) (scl w a) (scl w a')
  zeroC : R (CArith.cmk (fofNat 0) (fofNat 0)) (CArith.cmk (fofNat 0) (fofNat 0)) (CArith.cmk (fofNat 0) (fofNat 0))

/-- products with a factor on the right (mixed radix kernels of radix 3, 5, …) -/
def LinLaws.MulR {E A F C : Type} [DArith E] [CArith E A] [DArith F] [CArith F C] (R : A → C → C → Prop) : Prop :=
  ∀ {c a a'} (k : A) (w : C), R c a a' → R (mulpz c k) (mulpz a w) (mulpz a' w)

/-- products of `complex_t` with a factor on the right (Bluestein) -/
def LinLaws.CMulR {E A F C : Type} [DArith E] [CArith E A] [DArith F] [CArith F C] (R : A → C → C → Prop) : Prop :=
  ∀ {c a a'} (k : A) (w : C), R c a a' → R (CArith.cmul c k) (CArith.cmul a w) (CArith.cmul a' w)

/-- What the proof for all classes uses: `r` on doubles and `R` on complex numbers are preserved by the operations applied to
data. -/
structure HomLaws {E A F C : Type} [DArith E] [CArith E A] [DArith F] [CArith F C] (r : E → F → F → Prop)
    (R : A → C → C → Prop) : Prop extends LinLaws R where
  cnj : ∀ {c a a'}, R c a a' → R (cnjpz c) (cnjpz a) (cnjpz a')
  mulR : ∀ {c a a'} (k : A) (w : C), R c a a' → R (mulpz c k) (mulpz a w) (mulpz a' w)
  pair : ∀ {p q x x' y y'}, r p x x' → r q y y' → R (CArith.cmk p q) (CArith.cmk x y) (CArith.cmk x' y')
  re : ∀ {c a a'}, R c a a' → r (CArith.re c) (CArith.re a) (CArith.re a')
  im : ∀ {c a a'}, R c a a' → r (CArith.im c) (CArith.im a) (CArith.im a')
  cmulL : ∀ {c a a'} (k : A) (w : C), R c a a' → R (CArith.cmul k c) (CArith.cmul w a) (CArith.cmul w a')
  cmulR : ∀ {c a a'} (k : A) (w : C), R c a a' → R (CArith.cmul c k) (CArith.cmul a w) (CArith.cmul a' w)
  muld : ∀ {c a a'} (k : A) (w : C), R c a a' → R (CArith.mulpd k c) (CArith.mulpd w a) (CArith.mulpd w a')
  zero : r (fofNat 0) (fofNat 0) (fofNat 0)
  dadd : ∀ {p q x x' y y'}, r p x x' → r q y y' → r (fadd p q) (fadd x y) (fadd x' y')
  dsub : ∀ {p q x x' y y'}, r p x x' → r q y y' → r (fsub p q) (fsub x y) (fsub x' y')
  dneg : ∀ {p x x'}, r p x x' → r (fneg p) (fneg x) (fneg x')
  ddiv : ∀ {p x x'} (k : E) (w : F), r p x x' → r (fdiv p k) (fdiv x w) (fdiv x' w)

namespace LinLaws
variable {E A F C : Type} [DArith E] [CArith E A] [DArith F] [CArith F C] {r : E → F → F → Prop}
  {R : A → C → C → Prop} {mode : ScaleMode} {inv : Bool} {u : ℕ → A} {v v' : ℕ → C}

theorem scale (L : LinLaws R) {c : A} {a a' : C} (N : ℕ) (mode : ScaleMode) (h : R c a a') : R (scalepz N mode c) (scalepz N mode a) (scalepz N mode a') := by
  cases mode
  · exact h
  · exact L.scl _ _ h
  · exact L.scl _ _ h

theorem mixScale (L : LinLaws R) {c : A} {a a' : C} (N : ℕ) (mode : ScaleMode) (h : R c a a') :
    R (mixScale N mode c) (mixScale N mode a) (OTFFT.mixScale N mode a') := by
  cases mode
  · exact h
  · exact L.scl _ _ h
  · exact L.scl _ _ h

/-! ### butterflies -/

/-- the butterfly preserves `R` -/
def Bfly (R : A → C → C → Prop) {q : ℕ} (B : BF q) : Prop :=
  ∀ (y : Fin q → A) (x x' : Fin q → C), (∀ j, R (y j) (x j) (x' j)) → ∀ j, R (B.fn y j) (B.fn x j) (B.fn x' j)

macro "hom_steps" L:term "," h:term : tactic =>
  `(tactic| repeat' first
    | exact $h _
    | apply LinLaws.add $L
    | apply LinLaws.sub $L
    | apply LinLaws.jx $L
    | apply LinLaws.v8 $L
    | apply LinLaws.w8 $L
    | apply LinLaws.h1 $L
    | apply LinLaws.h3 $L
    | apply LinLaws.hf $L
    | apply LinLaws.hd $L)

theorem bfly2 (L : LinLaws R) : Bfly R bf2 := by
  intro y x x' h j
  fin_cases j
  · exact L.add (h 0) (h 1)
  · exact L.sub (h 0) (h 1)

theorem bfly4 (L : LinLaws R) (inv : Bool) : Bfly R (bf4 inv) := by
  intro y x x' h j
  cases inv <;> fin_cases j <;> (
    simp only [bf4, bf4fwd, bf4inv, if_true, if_false, Bool.false_eq_true]
    simp only [Fin.zero_eta, Fin.mk_one, Fin.reduceFinMk, Matrix.cons_val]
    hom_steps L, h)

theorem bfly8 (L : LinLaws R) (inv : Bool) : Bfly R (bf8 inv) := by
  intro y x x' h j
  cases inv <;> fin_cases j <;> (
    simp only [bf8, bf8fwd, bf8inv, if_true, if_false, Bool.false_eq_true]
    simp only [Fin.zero_eta, Fin.mk_one, Fin.reduceFinMk, Matrix.cons_val]
    hom_steps L, h)

theorem bfly16 (L : LinLaws R) (inv : Bool) : Bfly R (bf16 inv) := by
  intro y x x' h j
  cases inv <;> fin_cases j <;> (
    simp only [bf16, bf16fwd, bf16inv, if_true, if_false, Bool.false_eq_true]
    simp only [Fin.zero_eta, Fin.mk_one, Fin.reduceFinMk, Matrix.cons_val]
    hom_steps L, h)

/-! ### stages -/

section stage
variable {q m s N : ℕ} [NeZero q]

theorem dif_stage {Gu : ℕ → (Fin q → A) → Fin q → A} {Gr : ℕ → (Fin q → C) → Fin q → C} (hN : N = q * m * s)
    (hG : ∀ p < m, ∀ ys xs xs', (∀ j, R (ys j) (xs j) (xs' j)) → ∀ i, R (Gu p ys i) (Gr p xs i) (Gr p xs' i))
    (hv : ∀ t < N, R (u t) (v t) (v' t)) :
    ∀ t < N, R (difPure q m s Gu u t) (difPure q m s Gr v t) (difPure q m s Gr v' t) := by
  intro t ht
  have hr : 0 < q := Nat.pos_of_ne_zero (NeZero.ne q)
  have hs : 0 < s := Nat.pos_of_ne_zero (by rintro rfl; omega)
  have hm : t / s / q < m := by
    apply Nat.div_lt_of_lt_mul
    apply Nat.div_lt_of_lt_mul
    rw [hN, Nat.mul_comm (q * m) s] at ht
    exact ht
  apply hG _ hm
  intro j
  apply hv
  have h1 : t % s < s := Nat.mod_lt _ hs
  have h2 : t / s / q + m * j.val + 1 ≤ m * q := by
    calc t / s / q + m * j.val + 1 ≤ m * j.val + m := by omega
      _ = m * (j.val + 1) := by ring
      _ ≤ m * q := Nat.mul_le_mul_left _ j.isLt
  calc t % s + s * (t / s / q + m * j.val) < s * (t / s / q + m * j.val + 1) := by rw [Nat.mul_add s _ 1]; omega
    _ ≤ s * (m * q) := Nat.mul_le_mul_left _ h2
    _ = N := by rw [hN]; ring

theorem dit_stage {Gu : ℕ → (Fin q → A) → Fin q → A} {Gr : ℕ → (Fin q → C) → Fin q → C} (hN : N = q * m * s)
    (hG : ∀ p < m, ∀ ys xs xs', (∀ j, R (ys j) (xs j) (xs' j)) → ∀ i, R (Gu p ys i) (Gr p xs i) (Gr p xs' i))
    (hv : ∀ t < N, R (u t) (v t) (v' t)) :
    ∀ t < N, R (ditPure q m s Gu u t) (ditPure q m s Gr v t) (ditPure q m s Gr v' t) := by
  intro t ht
  have hs : 0 < s := Nat.pos_of_ne_zero (by rintro rfl; omega)
  have hm0 : 0 < m := Nat.pos_of_ne_zero (by rintro rfl; simp at hN; omega)
  have hm : t / s % m < m := Nat.mod_lt _ hm0
  apply hG _ hm
  intro j
  apply hv
  have h1 : t % s < s := Nat.mod_lt _ hs
  have h2 : q * (t / s % m) + j.val + 1 ≤ m * q := by
    calc q * (t / s % m) + j.val + 1 ≤ q * (t / s % m) + q := by have := j.isLt; omega
      _ = q * (t / s % m + 1) := by ring
      _ ≤ q * m := Nat.mul_le_mul_left _ hm
      _ = m * q := Nat.mul_comm _ _
  calc t % s + s * (q * (t / s % m) + j.val) < s * (q * (t / s % m) + j.val + 1) := by
        rw [Nat.mul_add s _ 1]; omega
    _ ≤ s * (m * q) := Nat.mul_le_mul_left _ h2
    _ = N := by rw [hN]; ring

end stage

section
variable {q : ℕ} {B : BF q}

theorem difOut_hom (L : LinLaws R) (hB : Bfly R B) (S : Fin (q - 1) → A) (T : Fin (q - 1) → C) (ys : Fin q → A) (xs xs' : Fin q → C)
    (h : ∀ j, R (ys j) (xs j) (xs' j)) (i : Fin q) : R (difOut B ys S i) (difOut B xs T i) (difOut B xs' T i) := by
  unfold difOut
  by_cases h0 : i.val = 0
  · rw [dif_pos h0, dif_pos h0, dif_pos h0]
    exact hB ys xs xs' h i
  · rw [dif_neg h0, dif_neg h0, dif_neg h0]
    exact L.mulL _ _ (hB ys xs xs' h i)

theorem ditOut_hom (L : LinLaws R) (hB : Bfly R B) (S : Fin (q - 1) → A) (T : Fin (q - 1) → C) (ys : Fin q → A) (xs xs' : Fin q → C)
    (h : ∀ j, R (ys j) (xs j) (xs' j)) (i : Fin q) : R (ditOut B ys S i) (ditOut B xs T i) (ditOut B xs' T i) := by
  unfold ditOut
  refine hB _ _ _ (fun j => ?_) i
  by_cases h0 : j.val = 0
  · simp only [h0, dite_true]; exact h j
  · simp only [h0, dite_false]; exact L.mulL _ _ (h j)

end

/-! ### Stockham transforms -/

section stock
variable {N : ℕ}

theorem end_hom (L : LinLaws R) {q s : ℕ} [NeZero q] {B : BF q} (hB : Bfly R B)
    (hN : N = q * s) (hv : ∀ t < N, R (u t) (v t) (v' t)) :
    ∀ t < N, R (difPure q 1 s (endG B (q * s) mode) u t) (difPure q 1 s (endG B (q * s) mode) v t) (difPure q 1 s (endG B (q * s) mode) v' t) :=
  dif_stage (by rw [hN]; ring) (fun _ _ _ _ _ h i => hB _ _ _ (fun j => L.scale _ mode (h j)) i) hv

theorem endPure_hom (L : LinLaws R) {n s : ℕ} (hn : n = 2 ∨ n = 4 ∨ n = 8 ∨ n = 16)
    (hN : N = n * s) (hv : ∀ t < N, R (u t) (v t) (v' t)) :
    ∀ t < N, R (endPure inv mode n s u t) (endPure inv mode n s v t) (endPure inv mode n s v' t) := by
  intro t ht
  unfold endPure
  rcases hn with rfl | rfl | rfl | rfl
  · exact L.end_hom L.bfly2 hN hv t ht
  · exact L.end_hom (L.bfly4 inv) hN hv t ht
  · exact L.end_hom (L.bfly8 inv) hN hv t ht
  · exact L.end_hom (L.bfly16 inv) hN hv t ht

section recs
variable {q e : ℕ} [NeZero q] {B : BF q} {S : ℕ → Fin (q - 1) → A} {T : ℕ → Fin (q - 1) → C}

/-- one step of the recursions -/
theorem split {l n s : ℕ} (hq : q = 2 ^ e) (hn : n = 2 ^ l) (hN : N = n * s) (h1 : ¬ n ≤ q) :
    e < l ∧ n / q = 2 ^ (l - e) ∧ N = q * (n / q) * s ∧ N = n / q * (q * s) := by
  have hel : e < l := by
    by_contra hc
    have : 2 ^ l ≤ 2 ^ e := Nat.pow_le_pow_right (by omega) (by omega)
    omega
  have hd : n / q = 2 ^ (l - e) := by
    rw [hn, hq, Nat.pow_div (by omega) (by omega)]
  have hm : n = q * (n / q) := by
    rw [hd, hn, hq, ← pow_add]; congr 1; omega
  refine ⟨hel, hd, by rw [← hm]; exact hN, ?_⟩
  rw [hN]
  conv_lhs => rw [hm]
  ring

theorem le16 (hq : q = 2 ^ e) (e2 : 2 ≤ e) (e4 : e ≤ 4) : 2 ≤ q ∧ q ≤ 16 := by
  rw [hq]
  have h1 : 2 ^ 1 ≤ 2 ^ e := Nat.pow_le_pow_right (by omega) (by omega)
  have h2 : 2 ^ e ≤ 2 ^ 4 := Nat.pow_le_pow_right (by omega) e4
  omega

theorem difRec_hom (L : LinLaws R) (hB : Bfly R B) (hq : q = 2 ^ e) (e2 : 2 ≤ e) (e4 : e ≤ 4) (l : ℕ) :
    ∀ {n s : ℕ} {u : ℕ → A} {v v' : ℕ → C}, n = 2 ^ l → 1 ≤ l → N = n * s → (∀ t < N, R (u t) (v t) (v' t)) →
      ∀ t < N, R (difRec q B inv S mode n s u t) (difRec q B inv T mode n s v t) (difRec q B inv T mode n s v' t) := by
  induction l using Nat.strong_induction_on with
  | _ l ih =>
    intro n s u v v' hn hl hN hv t ht
    have hr := le16 hq e2 e4
    rw [difRec.eq_def q B inv S mode n s u, difRec.eq_def q B inv T mode n s v, difRec.eq_def q B inv T mode n s v']
    by_cases hc : n ≤ q ∨ q < 2
    · rw [dif_pos hc, dif_pos hc, dif_pos hc]
      have hnr : n ≤ 16 := by omega
      exact L.endPure_hom (by rw [hn] at hnr ⊢; exact pow_le_16 hl hnr) hN hv t ht
    · rw [dif_neg hc, dif_neg hc, dif_neg hc]
      obtain ⟨hel, hd, hN1, hN2⟩ := split hq hn hN (by omega)
      refine ih (l - e) (by omega) hd (by omega) hN2 (dif_stage hN1 (fun p _ ys xs xs' h i => ?_) hv) t ht
      exact L.difOut_hom hB _ _ ys xs xs' h i

theorem ditRec_hom (L : LinLaws R) (hB : Bfly R B) (hq : q = 2 ^ e) (e2 : 2 ≤ e) (e4 : e ≤ 4) (l : ℕ) :
    ∀ {n s : ℕ} {u : ℕ → A} {v v' : ℕ → C}, n = 2 ^ l → 1 ≤ l → N = n * s → (∀ t < N, R (u t) (v t) (v' t)) →
      ∀ t < N, R (ditRec q B inv S mode n s u t) (ditRec q B inv T mode n s v t) (ditRec q B inv T mode n s v' t) := by
  induction l using Nat.strong_induction_on with
  | _ l ih =>
    intro n s u v v' hn hl hN hv t ht
    have hr := le16 hq e2 e4
    rw [ditRec.eq_def q B inv S mode n s u, ditRec.eq_def q B inv T mode n s v, ditRec.eq_def q B inv T mode n s v']
    by_cases hc : n ≤ q ∨ q < 2
    · rw [dif_pos hc, dif_pos hc, dif_pos hc]
      have hnr : n ≤ 16 := by omega
      exact L.endPure_hom (by rw [hn] at hnr ⊢; exact pow_le_16 hl hnr) hN hv t ht
    · rw [dif_neg hc, dif_neg hc, dif_neg hc]
      obtain ⟨hel, hd, hN1, hN2⟩ := split hq hn hN (by omega)
      exact dit_stage hN1 (fun p _ ys xs xs' h i => L.ditOut_hom hB _ _ ys xs xs' h i)
        (ih (l - e) (by omega) hd (by omega) hN2 hv) t ht

end recs

theorem stockOut_hom (L : LinLaws R) {th : ℕ} {dit : Bool} {rad : Radix} {l N : ℕ} (hN : N = 2 ^ l) (hl : 1 ≤ l)
    (hv : ∀ t < N, R (u t) (v t) (v' t)) :
    ∀ t < N, R (stockOut A th dit rad inv mode N u t) (stockOut C th dit rad inv mode N v t) (stockOut C th dit rad inv mode N v' t) := by
  cases dit <;> cases rad
  · exact L.difRec_hom (e := 2) (L.bfly4 inv) (by norm_num) (by omega) (by omega) l hN hl (by omega) hv
  · exact L.difRec_hom (e := 3) (L.bfly8 inv) (by norm_num) (by omega) (by omega) l hN hl (by omega) hv
  · exact L.difRec_hom (e := 4) (L.bfly16 inv) (by norm_num) (by omega) (by omega) l hN hl (by omega) hv
  · exact L.ditRec_hom (e := 2) (L.bfly4 inv) (by norm_num) (by omega) (by omega) l hN hl (by omega) hv
  · exact L.ditRec_hom (e := 3) (L.bfly8 inv) (by norm_num) (by omega) (by omega) l hN hl (by omega) hv
  · exact L.ditRec_hom (e := 4) (L.bfly16 inv) (by norm_num) (by omega) (by omega) l hN hl (by omega) hv

end stock

/-! ### six-step and eight-step -/

section six
variable {n : ℕ}
open ApLaws (mod_lt_of rc_lt)

theorem transp_hom (hv : ∀ t < n * n, R (u t) (v t) (v' t)) : ∀ t < n * n, R (transpV n u t) (transpV n v t) (transpV n v' t) :=
  fun _ ht => hv _ (rc_lt (Nat.div_lt_of_lt_mul ht) (mod_lt_of ht))

theorem rec8_hom (L : LinLaws R) {l N : ℕ} (hN : N = 2 ^ l) (hl : 1 ≤ l) (hv : ∀ t < N, R (u t) (v t) (v' t)) :
    ∀ t < N, R (difRec 8 (bf8 inv) inv (stockhamTw A .serial 8 N inv) mode N 1 u t) (difRec 8 (bf8 inv) inv (stockhamTw C .serial 8 N inv) mode N 1 v t) (difRec 8 (bf8 inv) inv (stockhamTw C .serial 8 N inv) mode N 1 v' t) :=
  L.difRec_hom (e := 3) (L.bfly8 inv) (by norm_num) (by omega) (by omega) l hN hl (by omega) hv

theorem rows_hom (L : LinLaws R) {l : ℕ} (hn : n = 2 ^ l) (hl : 1 ≤ l) (hv : ∀ t < n * n, R (u t) (v t) (v' t)) :
    ∀ t < n * n, R (sixRowsV inv n u t) (sixRowsV inv n v t) (sixRowsV inv n v' t) := fun t ht =>
  L.rec8_hom (inv := inv) (mode := .scale_1) (u := fun j => u (t / n * n + j)) (v := fun j => v (t / n * n + j)) (v' := fun j => v' (t / n * n + j))
    hn hl (fun j hj => hv _ (by rw [Nat.add_comm]; exact rc_lt hj (Nat.div_lt_of_lt_mul ht))) (t % n) (mod_lt_of ht)

theorem mult_hom (L : LinLaws R) (hv : ∀ t < n * n, R (u t) (v t) (v' t)) :
    ∀ t < n * n, R (sixMultV inv mode n u t) (sixMultV inv mode n v t) (sixMultV inv mode n v' t) := fun t ht =>
  L.mulL _ _ (hv (t / n + t % n * n) (rc_lt (Nat.div_lt_of_lt_mul ht) (mod_lt_of ht)))

theorem six_hom (L : LinLaws R) {l : ℕ} (hn : n = 2 ^ l) (hl : 1 ≤ l) (hv : ∀ t < n * n, R (u t) (v t) (v' t)) :
    ∀ t < n * n, R (sixPure inv mode n u t) (sixPure inv mode n v t) (sixPure inv mode n v' t) :=
  transp_hom (L.rows_hom hn hl (L.mult_hom (L.rows_hom hn hl (transp_hom hv))))

theorem eightPre_hom (L : LinLaws R) {N1 : ℕ} (hv : ∀ t < 8 * N1, R (u t) (v t) (v' t)) :
    ∀ t < 8 * N1, R (eightPreV inv mode N1 u t) (eightPreV inv mode N1 v t) (eightPreV inv mode N1 v' t) := by
  intro t ht
  have h1 : 0 < N1 := by omega
  have hq : t % N1 < N1 := Nat.mod_lt _ h1
  exact L.difOut_hom (L.bfly8 inv) _ _ (fun j => scalepz (8 * N1) mode (u (t % N1 + N1 * j.val)))
    (fun j => scalepz (8 * N1) mode (v (t % N1 + N1 * j.val)))
    (fun j => scalepz (8 * N1) mode (v' (t % N1 + N1 * j.val)))
    (fun j => L.scale (8 * N1) mode (hv _ (by
      have hj := j.isLt
      calc t % N1 + N1 * j.val < N1 * (j.val + 1) := by rw [Nat.mul_add]; omega
        _ ≤ N1 * 8 := Nat.mul_le_mul_left _ hj
        _ = 8 * N1 := Nat.mul_comm _ _))) (Fin.ofNat 8 (t / N1))

theorem eight_hom (L : LinLaws R) {l : ℕ} (hn : n = 2 ^ l) (hl : 1 ≤ l) (hv : ∀ t < 8 * (n * n), R (u t) (v t) (v' t)) :
    ∀ t < 8 * (n * n), R (eightPure inv mode n u t) (eightPure inv mode n v t) (eightPure inv mode n v' t) := by
  intro t ht
  have h1 : 1 ≤ n * n := by omega
  have a1 := L.eightPre_hom (inv := inv) (mode := mode) hv
  have a2 : ∀ t < 8 * (n * n), R (eightSubV inv n (eightPreV inv mode (n * n) u) t) (eightSubV inv n (eightPreV inv mode (n * n) v) t) (eightSubV inv n (eightPreV inv mode (n * n) v') t) := by
    intro t ht
    have hb : t / (n * n) < 8 := Nat.div_lt_of_lt_mul (by omega)
    exact L.six_hom (inv := inv) (mode := .scale_1) (u := fun j => eightPreV inv mode (n * n) u (t / (n * n) * (n * n) + j))
      (v := fun j => eightPreV inv mode (n * n) v (t / (n * n) * (n * n) + j))
      (v' := fun j => eightPreV inv mode (n * n) v' (t / (n * n) * (n * n) + j)) hn hl
      (fun j hj => a1 _ (by rw [Nat.add_comm]; exact rc_lt hj hb)) (t % (n * n)) (Nat.mod_lt _ h1)
  exact a2 (t / 8 + n * n * (t % 8)) (by
    have : t / 8 < n * n := by omega
    rw [Nat.mul_comm (n * n)]
    exact rc_lt this (by omega))

theorem sixOut_hom (L : LinLaws R) {l N : ℕ} (hN : N = 2 ^ l) (hl : 1 ≤ l) (hv : ∀ t < N, R (u t) (v t) (v' t)) :
    ∀ t < N, R (sixOut inv mode l u t) (sixOut inv mode l v t) (sixOut inv mode l v' t) := by
  intro t ht
  unfold sixOut
  by_cases h5 : l ≤ 5
  · rw [if_pos h5, if_pos h5, if_pos h5]
    subst hN
    exact L.rec8_hom rfl hl hv t ht
  · rw [if_neg h5, if_neg h5, if_neg h5]
    by_cases h2 : l % 2 = 1
    · rw [if_pos h2, if_pos h2, if_pos h2]
      have e := pow_split_odd h5 h2
      rw [hN, e] at hv ht
      exact L.eight_hom rfl (by omega) hv t ht
    · rw [if_neg h2, if_neg h2, if_neg h2]
      have e : 2 ^ l = 2 ^ (l / 2) * 2 ^ (l / 2) := by rw [← pow_add]; congr 1; omega
      rw [hN, e] at hv ht
      exact L.six_hom rfl (by omega) hv t ht

end six

/-! ### mixed radix -/

/-- the stage body preserves `R` -/
def BflyT (R : A → C → C → Prop) {q b : ℕ} (S : BFT q b) : Prop :=
  ∀ (y : Fin q → A) (x x' : Fin q → C) (U : Fin b → A) (T : Fin b → C), (∀ j, R (y j) (x j) (x' j)) → ∀ j, R (S.fn y U j) (S.fn x T j) (S.fn x' T j)

theorem bt_end {q : ℕ} {B : BF q} (h : Bfly R B) : BflyT R (mixEndBF B) := fun y x x' _ _ hx j => h y x x' hx j
theorem bt_mix2 (L : LinLaws R) : BflyT R mix2 := fun y x x' U T hx j => L.difOut_hom L.bfly2 (fun _ => U 0) (fun _ => T 0) y x x' hx j
theorem bt_mix4s (L : LinLaws R) : BflyT R (mix4s inv) := fun y x x' _ _ hx j => L.difOut_hom (L.bfly4 inv) _ _ y x x' hx j
theorem bt_mix4one (L : LinLaws R) : BflyT R (mix4one inv) := fun y x x' U T hx j =>
  L.difOut_hom (L.bfly4 inv) (fun k => wpow (cj inv (U 0)) (k.val + 1)) (fun k => wpow (cj inv (T 0)) (k.val + 1)) y x x' hx j
theorem bt_mix8one (L : LinLaws R) : BflyT R (mix8one inv) := fun y x x' U T hx j =>
  L.difOut_hom (L.bfly8 inv) (fun k => wpow (cj inv (U 0)) (k.val + 1)) (fun k => wpow (cj inv (T 0)) (k.val + 1)) y x x' hx j
theorem bt_mix8s (L : LinLaws R) : BflyT R (mix8s inv) := fun y x x' _ _ hx j => L.difOut_hom (L.bfly8 inv) _ _ y x x' hx j

theorem sum3_hom (L : LinLaws R) {y : Fin 3 → A} {x x' : Fin 3 → C} (wu : A) (w : C) (hx : ∀ j, R (y j) (x j) (x' j)) (j : Fin 3) :
    R (sum3 y wu j) (sum3 x w j) (sum3 x' w j) := by
  fin_cases j
  · exact L.add (L.add (hx 0) (hx 1)) (hx 2)
  · exact L.add (L.add (hx 0) (L.mulL _ _ (hx 1))) (L.mulL _ _ (hx 2))
  · exact L.add (L.add (hx 0) (L.mulL _ _ (hx 1))) (L.mulL _ _ (hx 2))

theorem sum5_hom (L : LinLaws R) {y : Fin 5 → A} {x x' : Fin 5 → C} (wu : A) (w : C) (hx : ∀ j, R (y j) (x j) (x' j)) (j : Fin 5) :
    R (sum5 y wu j) (sum5 x w j) (sum5 x' w j) := by
  fin_cases j
  · exact L.add (L.add (L.add (L.add (hx 0) (hx 1)) (hx 2)) (hx 3)) (hx 4)
  all_goals exact L.add (L.add (L.add (L.add (hx 0) (L.mulL _ _ (hx 1))) (L.mulL _ _ (hx 2))) (L.mulL _ _ (hx 3))) (L.mulL _ _ (hx 4))

theorem bt_end3 (L : LinLaws R) : BflyT R mixEnd3 := fun _ _ _ U T hx j => L.sum3_hom (U 0) (T 0) hx j
theorem bt_end5 (L : LinLaws R) : BflyT R mixEnd5 := fun _ _ _ U T hx j => L.sum5_hom (U 0) (T 0) hx j

theorem bt_mix3 (L : LinLaws R) (hR : MulR R) : BflyT R mix3 := by
  intro y x x' U T hx j
  have hs := L.sum3_hom (U 0) (T 0) hx
  fin_cases j
  · exact hs 0
  · exact hR _ _ (hs 1)
  · exact hR _ _ (hs 2)

theorem bt_mix5 (L : LinLaws R) (hR : MulR R) : BflyT R mix5 := by
  intro y x x' U T hx j
  have hs := L.sum5_hom (U 0) (T 0) hx
  fin_cases j
  · exact hs 0
  · exact hR _ _ (hs 1)
  · exact hR _ _ (hs 2)
  · exact hR _ _ (hs 3)
  · exact hR _ _ (hs 4)

theorem anySum_hom (L : LinLaws R) (hR : MulR R) {p i : ℕ} {y wu : ℕ → A} {x x' w : ℕ → C} (hx : ∀ j, R (y j) (x j) (x' j)) (js : List ℕ) :
    ∀ {zu z z'}, R zu z z' → R (anySum p i y wu js zu) (anySum p i x w js z) (anySum p i x' w js z') := by
  induction js with
  | nil => intro zu z z' hz; exact hz
  | cons j js ih => intro zu z z' hz; exact ih (L.add hz (hR _ _ (hx j)))

theorem anyG_hom (L : LinLaws R) (hR : MulR R) {p : ℕ} [NeZero p] {wu : ℕ → A} {w : ℕ → C} (tu : Option (ℕ → ℕ → A)) (tv : Option (ℕ → ℕ → C))
    (ht : tu.isSome = tv.isSome) (q : ℕ) (ys : Fin p → A) (xs xs' : Fin p → C)
    (hx : ∀ j, R (ys j) (xs j) (xs' j)) (i : Fin p) : R (anyG p wu tu q ys i) (anyG p w tv q xs i) (anyG p w tv q xs' i) := by
  unfold anyG anyVal
  have := L.anySum_hom hR (p := p) (i := i.val) (wu := wu) (w := w) (y := fun j => ys (Fin.ofNat p j)) (x := fun j => xs (Fin.ofNat p j)) (x' := fun j => xs' (Fin.ofNat p j))
    (fun j => hx _) (List.range p) L.zeroC
  cases tu <;> cases tv
  · exact this
  · cases ht
  · cases ht
  · exact hR _ _ this

theorem core_hom {q b m s N : ℕ} [NeZero q] {S : BFT q b} (hS : BflyT R S) (hN : N = q * m * s)
    (wu : ℕ → A) (wv : ℕ → C) (tw : ℕ → Fin b → ℕ) (hv : ∀ t < N, R (u t) (v t) (v' t)) :
    ∀ t < N, R (difPure q m s (coreG S wu tw) u t) (difPure q m s (coreG S wv tw) v t) (difPure q m s (coreG S wv tw) v' t) :=
  dif_stage hN (fun _ _ ys xs xs' h i => hS ys xs xs' _ _ h i) hv

section
variable {N : ℕ}

theorem div_ge {n q : ℕ} (hq : 2 ≤ q) (h2 : 2 ≤ n) (h : n % q = 0) (hne : n ≠ q) : n / q < n ∧ 2 ≤ n / q := by
  have hdd := Nat.mul_div_cancel' (Nat.dvd_of_mod_eq_zero h)
  have h0 : 2 ≤ n / q := by
    by_contra hc
    rcases (show n / q = 0 ∨ n / q = 1 by
      generalize n / q = k at hc
      omega) with e | e <;> rw [e] at hdd <;> omega
  exact ⟨Nat.div_lt_self (by omega) (by omega), h0⟩

theorem split_of {n s q : ℕ} (hN : N = n * s) (h : n % q = 0) : N = q * (n / q) * s ∧ N = n / q * (q * s) := by
  have hm : n = q * (n / q) := (Nat.mul_div_cancel' (Nat.dvd_of_mod_eq_zero h)).symm
  refine ⟨by rw [← hm]; exact hN, ?_⟩
  rw [hN]
  conv_lhs => rw [hm]
  ring

theorem mixAny_hom (L : LinLaws R) (hR : MulR R) {wu : ℕ → A} {wv : ℕ → C} (n : ℕ) :
    ∀ {s : ℕ} {u : ℕ → A} {v v' : ℕ → C}, N = n * s → 2 ≤ n → (∀ t < N, R (u t) (v t) (v' t)) →
      ∀ t < N, R (mixAnyRec inv N wu n s u t) (mixAnyRec inv N wv n s v t) (mixAnyRec inv N wv n s v' t) := by
  induction n using Nat.strong_induction_on with
  | _ n ih =>
    intro s u v v' hN h2 hv
    have hpr := Nat.minFac_prime (n := n) (by omega)
    have hdv := Nat.minFac_dvd n
    have : NeZero n.minFac := ⟨hpr.ne_zero⟩
    rw [mixAnyRec.eq_def inv N wu n s u, mixAnyRec.eq_def inv N wv n s v, mixAnyRec.eq_def inv N wv n s v', dif_neg (by omega), dif_neg (by omega), dif_neg (by omega)]
    by_cases hp : n.minFac = n
    · rw [if_pos hp, if_pos hp, if_pos hp]
      exact dif_stage (by rw [hp, Nat.mul_one]; exact hN) (fun q _ ys xs xs' h i => L.anyG_hom hR none none rfl q ys xs xs' h i) hv
    · rw [if_neg hp, if_neg hp, if_neg hp]
      obtain ⟨hN1, hN2⟩ := split_of (q := n.minFac) hN (Nat.mod_eq_zero_of_dvd hdv)
      obtain ⟨hlt, hge⟩ := div_ge hpr.two_le h2 (Nat.mod_eq_zero_of_dvd hdv) (fun e => hp e.symm)
      exact ih _ hlt hN2 hge (dif_stage hN1 (fun q _ ys xs xs' h i => L.anyG_hom hR _ _ rfl q ys xs xs' h i) hv)

theorem mixRec_hom (L : LinLaws R) {wu : ℕ → A} {wv : ℕ → C} (n : ℕ) :
    ∀ {s : ℕ} {u : ℕ → A} {v v' : ℕ → C}, (MulR R ∨ ∃ k, n = 2 ^ k) → N = n * s → 2 ≤ n → (∀ t < N, R (u t) (v t) (v' t)) →
      ∀ t < N, R (mixRec inv N wu n s u t) (mixRec inv N wv n s v t) (mixRec inv N wv n s v' t) := by
  induction n using Nat.strong_induction_on with
  | _ n ih =>
    intro s u v v' hR hN h2 hv
    rw [mixRec.eq_def inv N wu n s u, mixRec.eq_def inv N wv n s v, mixRec.eq_def inv N wv n s v', dif_neg (by omega), dif_neg (by omega), dif_neg (by omega)]
    have hd : ∀ {q}, n % q = 0 → MulR R ∨ ∃ k, n / q = 2 ^ k := fun {q} hq => hR.imp_right fun ⟨k, hk⟩ => by
      obtain ⟨j, -, hj⟩ := (Nat.dvd_prime_pow Nat.prime_two).1 (hk ▸ Nat.div_dvd_of_dvd (Nat.dvd_of_mod_eq_zero hq))
      exact ⟨j, hk ▸ hj⟩
    by_cases h8 : n % 8 = 0
    · rw [if_pos h8, if_pos h8, if_pos h8]
      by_cases hn : n = 8
      · rw [if_pos hn, if_pos hn, if_pos hn]
        subst hn
        exact core_hom (bt_end (L.bfly8 inv)) (by omega) _ _ _ hv
      · rw [if_neg hn, if_neg hn, if_neg hn]
        obtain ⟨n1, n2⟩ := split_of (q := 8) hN h8
        obtain ⟨hlt, hge⟩ := div_ge (by omega) h2 h8 hn
        refine ih _ hlt (hd h8) n2 hge ?_
        by_cases h1 : 2 ≤ s
        · rw [if_pos h1, if_pos h1, if_pos h1]
          exact core_hom L.bt_mix8s n1 _ _ _ hv
        · rw [if_neg h1, if_neg h1, if_neg h1]
          exact core_hom L.bt_mix8one n1 _ _ _ hv
    rw [if_neg h8, if_neg h8, if_neg h8]
    by_cases h4 : n % 4 = 0
    · rw [if_pos h4, if_pos h4, if_pos h4]
      by_cases hn : n = 4
      · rw [if_pos hn, if_pos hn, if_pos hn]
        subst hn
        exact core_hom (bt_end (L.bfly4 inv)) (by omega) _ _ _ hv
      · rw [if_neg hn, if_neg hn, if_neg hn]
        obtain ⟨n1, n2⟩ := split_of (q := 4) hN h4
        obtain ⟨hlt, hge⟩ := div_ge (by omega) h2 h4 hn
        refine ih _ hlt (hd h4) n2 hge ?_
        by_cases h1 : 2 ≤ s
        · rw [if_pos h1, if_pos h1, if_pos h1]
          exact core_hom L.bt_mix4s n1 _ _ _ hv
        · rw [if_neg h1, if_neg h1, if_neg h1]
          exact core_hom L.bt_mix4one n1 _ _ _ hv
    rw [if_neg h4, if_neg h4, if_neg h4]
    by_cases h22 : n % 2 = 0
    · rw [if_pos h22, if_pos h22, if_pos h22]
      by_cases hn : n = 2
      · rw [if_pos hn, if_pos hn, if_pos hn]
        subst hn
        exact core_hom (bt_end L.bfly2) (by omega) _ _ _ hv
      · rw [if_neg hn, if_neg hn, if_neg hn]
        obtain ⟨n1, n2⟩ := split_of (q := 2) hN h22
        obtain ⟨hlt, hge⟩ := div_ge (by omega) h2 h22 hn
        exact ih _ hlt (hd h22) n2 hge (core_hom L.bt_mix2 n1 _ _ _ hv)
    rw [if_neg h22, if_neg h22, if_neg h22]
    replace hR : MulR R := hR.resolve_right fun ⟨k, hk⟩ => by
      rcases k with _ | k
      · omega
      · rw [pow_succ] at hk; omega
    by_cases h5 : n % 5 = 0
    · rw [if_pos h5, if_pos h5, if_pos h5]
      by_cases hn : n = 5
      · rw [if_pos hn, if_pos hn, if_pos hn]
        subst hn
        exact core_hom L.bt_end5 (by omega) _ _ _ hv
      · rw [if_neg hn, if_neg hn, if_neg hn]
        obtain ⟨n1, n2⟩ := split_of (q := 5) hN h5
        obtain ⟨hlt, hge⟩ := div_ge (by omega) h2 h5 hn
        exact ih _ hlt (.inl hR) n2 hge (core_hom (L.bt_mix5 hR) n1 _ _ _ hv)
    rw [if_neg h5, if_neg h5, if_neg h5]
    by_cases h3 : n % 3 = 0
    · rw [if_pos h3, if_pos h3, if_pos h3]
      by_cases hn : n = 3
      · rw [if_pos hn, if_pos hn, if_pos hn]
        subst hn
        exact core_hom L.bt_end3 (by omega) _ _ _ hv
      · rw [if_neg hn, if_neg hn, if_neg hn]
        obtain ⟨n1, n2⟩ := split_of (q := 3) hN h3
        obtain ⟨hlt, hge⟩ := div_ge (by omega) h2 h3 hn
        exact ih _ hlt (.inl hR) n2 hge (core_hom (L.bt_mix3 hR) n1 _ _ _ hv)
    rw [if_neg h3, if_neg h3, if_neg h3]
    exact L.mixAny_hom hR n hN h2 hv

end

theorem mixOut_hom (L : LinLaws R) {N : ℕ} (hR : MulR R ∨ ∃ k, N = 2 ^ k) (h2 : 2 ≤ N) (hv : ∀ t < N, R (u t) (v t) (v' t)) :
    ∀ t < N, R (mixOut A inv mode N u t) (mixOut C inv mode N v t) (mixOut C inv mode N v' t) := fun t ht =>
  L.mixScale N mode (L.mixRec_hom N (s := 1) hR (by omega) h2 hv t ht)

/-! ### all algorithms -/

theorem algoOut_hom (L : LinLaws R) {thr : Thr} {kind : AlgoKind} {n : ℕ} (hR : MulR R ∨ ∃ k, n = 2 ^ k) (hk : kind.Usable n) (h2 : 2 ≤ n)
    (hv : ∀ t < n, R (u t) (v t) (v' t)) : ∀ t < n, R (algoOut A thr kind inv mode n u t) (algoOut C thr kind inv mode n v t) (algoOut C thr kind inv mode n v' t) := by
  intro t ht
  unfold algoOut
  cases kind with
  | stock dit rad =>
    obtain ⟨l, rfl, hl, _⟩ := hk
    exact L.stockOut_hom rfl hl hv t ht
  | six =>
    obtain ⟨l, rfl, hl, _⟩ := hk
    simp only [logLoop_pow]
    exact L.sixOut_hom rfl hl hv t ht
  | mixed => exact L.mixOut_hom hR h2 hv t ht

theorem fftOut_hom (L : LinLaws R) {thr : Thr} {n : ℕ} (hR : MulR R ∨ ∃ k, n = 2 ^ k) (hv : ∀ t < n, R (u t) (v t) (v' t)) :
    ∀ t < n, R (fftOut A thr inv mode n u t) (fftOut C thr inv mode n v t) (fftOut C thr inv mode n v' t) := by
  unfold fftOut
  cases hd : dispatch (logOf n) with
  | none => exact hv
  | some kind =>
    by_cases h2 : 2 ≤ n
    · exact L.algoOut_hom hR (AlgoKind.usable_of_dispatch hd) h2 hv
    · intro t ht
      obtain rfl : n = 1 := by omega
      rw [show logOf 1 = some 0 from logOf_pow 0] at hd
      cases hd


/-! ### Bluestein -/

theorem blueOut_hom (L : LinLaws R) (hR : MulR R) (hC : CMulR R) {thr : Thr} {n : ℕ} (h29 : n ≤ 2 ^ 29) (e : Entry) (hv : ∀ t < n, R (u t) (v t) (v' t)) :
    ∀ t < n, R (blueOutF A thr e n u t) (blueOutF C thr e n v t) (blueOutF C thr e n v' t) := by
  intro t ht
  unfold blueOutF blueRes
  by_cases hn : n < 2
  · rw [if_pos hn, if_pos hn, if_pos hn]; exact hv t ht
  · rw [if_neg hn, if_neg hn, if_neg hn]
    have hl : n ≤ bluePad n := by
      obtain ⟨l, hl⟩ := blueLoop_some h29
      have := (blueLoop_valid (by omega) hl).2
      rw [bluePad, hl]
      show n ≤ l
      omega
    generalize bluePad n = l at hl
    have hA : ∀ p, R (blueA A n e.isInv (blueTab A n) u p) (blueA C n e.isInv (blueTab C n) v p) (blueA C n e.isInv (blueTab C n) v' p) := by
      intro p
      unfold blueA
      split
      · exact hv 0 (by omega)
      split
      · exact hC _ _ (hv p (by assumption))
      · exact L.zeroC
    have h1 := L.fftOut_hom (thr := thr) (inv := false) (mode := .scale_1) (n := l) (.inl hR) (fun t _ => hA t)
    have h2 := L.fftOut_hom (thr := thr) (inv := true) (mode := .scale_length) (.inl hR) (fun t ht => hR
      (fftOut A thr false .scale_1 l (blueB A n l e.isInv (blueTab A n)) t)
      (fftOut C thr false .scale_1 l (blueB C n l e.isInv (blueTab C n)) t) (h1 t ht)) t (by omega)
    have h3 := hR (cnjpz (blueX A n e.isInv (blueTab A n) t)) (cnjpz (blueX C n e.isInv (blueTab C n) t)) h2
    generalize e.mode = mo
    cases mo
    · exact h3
    · exact L.scl _ _ h3
    · exact L.scl _ _ h3

end LinLaws

namespace HomLaws
variable {E A F C : Type} [DArith E] [CArith E A] [DArith F] [CArith F C] {r : E → F → F → Prop}
  {R : A → C → C → Prop} {mode : ScaleMode} {inv : Bool} {u : ℕ → A} {v v' : ℕ → C}

theorem fftOut_hom (L : HomLaws r R) {thr : Thr} {n : ℕ} (hv : ∀ t < n, R (u t) (v t) (v' t)) :
    ∀ t < n, R (fftOut A thr inv mode n u t) (fftOut C thr inv mode n v t) (fftOut C thr inv mode n v' t) :=
  L.toLinLaws.fftOut_hom (.inl L.mulR) hv

theorem blueOut_hom (L : HomLaws r R) {thr : Thr} {n : ℕ} (h29 : n ≤ 2 ^ 29) (e : Entry) (hv : ∀ t < n, R (u t) (v t) (v' t)) :
    ∀ t < n, R (blueOutF A thr e n u t) (blueOutF C thr e n v t) (blueOutF C thr e n v' t) :=
  L.toLinLaws.blueOut_hom L.mulR L.cmulR h29 e hv

/-! ### real transforms -/

section real
variable {thr : Thr} {m n : ℕ}

theorem rsc_hom (L : HomLaws r R) {c : A} {a a' : C} (N : ℕ) (h : R c a a') : R (rsc mode N c) (rsc mode N a) (rsc mode N a') := by
  cases mode
  · exact h
  · exact L.scl _ _ h
  · exact L.scl _ _ h

theorem rsc0_hom (L : HomLaws r R) {y : E} {x x' : F} (N : ℕ) (h : r y x x') : r (rsc0 E mode N y) (rsc0 F mode N x) (rsc0 F mode N x') := by
  cases mode
  · exact h
  · exact L.ddiv _ _ h
  · exact L.ddiv _ _ h

theorem rscInv_hom (L : HomLaws r R) {c : A} {a a' : C} (N : ℕ) (h : R c a a') : R (rscInv mode N c) (rscInv mode N a) (rscInv mode N a') := by
  cases mode
  · exact L.scl _ _ h
  · exact L.scl _ _ h
  · exact h

theorem ofD_hom (L : HomLaws r R) {y : E} {x x' : F} (h : r y x x') : R (ofD A y) (ofD C x) (ofD C x') := L.pair h L.zero

theorem rfftFwd_hom (L : HomLaws r R) (hv : ∀ t < 2 * m, R (u t) (v t) (v' t)) :
    ∀ t < 2 * m, R (rfftFwdOut A thr mode m u t) (rfftFwdOut C thr mode m v t) (rfftFwdOut C thr mode m v' t) := by
  intro t ht
  have hz : ∀ p < m, R (rfftZin A u p) (rfftZin C v p) (rfftZin C v' p) := fun p hp =>
    L.pair (L.re (hv _ (by omega))) (L.re (hv _ (by omega)))
  have hZ := L.fftOut_hom (thr := thr) (inv := false) (mode := .scale_1) hz
  unfold rfftFwdOut
  generalize fftOut A thr false .scale_1 m (rfftZin A u) = Y at hZ
  generalize fftOut C thr false .scale_1 m (rfftZin C v) = Z at hZ
  generalize fftOut C thr false .scale_1 m (rfftZin C v') = Z' at hZ
  have hmid : ∀ t, 1 ≤ t → t < m → R (rfftMid mode m (rfftTab A (2 * m)) Y t) (rfftMid mode m (rfftTab C (2 * m)) Z t) (rfftMid mode m (rfftTab C (2 * m)) Z' t) := by
    intro t h1 ht
    unfold rfftMid
    split
    · exact L.rsc_hom _ (L.sub (hZ t ht) (L.mulL _ _ (L.sub (hZ t ht) (L.cnj (hZ _ (by omega))))))
    · exact L.rsc_hom _ (L.cnj (L.add (L.cnj (hZ t ht)) (L.mulL _ _ (L.sub (hZ _ (by omega)) (L.cnj (hZ t ht))))))
  have z0 := hZ 0 (by omega)
  unfold rfftPostOut
  split
  · exact L.ofD_hom (L.rsc0_hom _ (L.dadd (L.re z0) (L.im z0)))
  split
  · exact hmid t (by omega) (by omega)
  split
  · exact L.ofD_hom (L.rsc0_hom _ (L.dsub (L.re z0) (L.im z0)))
  · exact L.cnj (hmid _ (by omega) (by omega))

theorem rfftInv_hom (L : HomLaws r R) (hv : ∀ t ≤ m, R (u t) (v t) (v' t)) :
    ∀ t < 2 * m, R (rfftInvOut A thr mode m u t) (rfftInvOut C thr mode m v t) (rfftInvOut C thr mode m v' t) := by
  have hpre : ∀ p < m, R (rfftPreOut mode m (rfftTab A (2 * m)) u p) (rfftPreOut mode m (rfftTab C (2 * m)) v p) (rfftPreOut mode m (rfftTab C (2 * m)) v' p) := by
    intro p hp
    have a := L.cnj (hv p (by omega))
    exact L.rscInv_hom _ (L.cnj (L.sub a (L.mulL _ _ (L.sub a (hv (m - p) (by omega))))))
  have h := L.fftOut_hom (thr := thr) (inv := true) (mode := rfftInvMode mode) hpre
  intro t ht
  unfold rfftInvOut unpackD
  split
  · exact L.ofD_hom (L.re (h _ (by omega)))
  · exact L.ofD_hom (L.im (h _ (by omega)))

theorem rfftOut_hom (L : HomLaws r R) (hn : RealLen n) (e : Entry) (hv : ∀ t < rfftNeed e n, R (u t) (v t) (v' t)) :
    ∀ t < n, R (rfftOut A thr e n u t) (rfftOut C thr e n v t) (rfftOut C thr e n v' t) := by
  intro t ht
  unfold rfftOut
  have h0 := hv 0 (by unfold rfftNeed; split <;> omega)
  rcases hn with rfl | ⟨m, rfl, hm', h31⟩
  · rw [if_pos rfl, if_pos rfl, if_pos rfl]
    exact L.ofD_hom (L.re h0)
  · have h2 := hm'.two
    rw [if_neg (by omega : ¬ 2 * m = 1), if_neg (by omega : ¬ 2 * m = 1), if_neg (by omega : ¬ 2 * m = 1), show 2 * m / 2 = m by omega]
    unfold rfftNeed at hv
    split
    · rename_i he
      rw [if_pos he] at hv
      exact L.rfftInv_hom (fun t ht => hv t (by omega)) t ht
    · rename_i he
      rw [if_neg he] at hv
      exact L.rfftFwd_hom hv t ht

theorem dctOut_hom (L : HomLaws r R) (hn : RealLen n) (e : DctEntry) (hv : ∀ t < n, R (u t) (v t) (v' t)) :
    ∀ t < n, R (dctOut A thr e n u t) (dctOut C thr e n v t) (dctOut C thr e n v' t) := by
  intro t ht
  unfold dctOut
  by_cases h1 : n = 1
  · rw [if_pos h1, if_pos h1, if_pos h1]; exact hv t ht
  · obtain ⟨m, rfl⟩ : ∃ m, n = 2 * m := by
      rcases hn with rfl | ⟨m, rfl, -⟩
      · exact absurd rfl h1
      · exact ⟨m, rfl⟩
    rw [if_neg h1, if_neg h1, if_neg h1, show 2 * m / 2 = m by omega]
    by_cases he : e.isInv = true
    · rw [if_pos he, if_pos he, if_pos he]
      have hp : ∀ t < 2 * m, R (dctPreV A (2 * m) (dctTab A (2 * m)) u t) (dctPreV C (2 * m) (dctTab C (2 * m)) v t) (dctPreV C (2 * m) (dctTab C (2 * m)) v' t) := by
        intro t ht
        unfold dctPreV
        split
        · exact L.ofD_hom (L.re (hv 0 (by omega)))
        · exact L.cmulL _ _ (L.pair (L.re (hv t ht)) (L.dneg (L.re (hv _ (by omega)))))
      have h := L.rfftOut_hom (thr := thr) hn e.real (fun t ht => hp t (lt_of_lt_of_le ht (rfftNeed_le hn)))
      unfold dctScat
      split
      · exact h _ (by omega)
      · exact h _ (by omega)
    · rw [if_neg he, if_neg he, if_neg he]
      have hg : ∀ t < 2 * m, R (dctGath m u t) (dctGath m v t) (dctGath m v' t) := by
        intro q hq
        unfold dctGath
        split
        · exact hv _ (by omega)
        · exact hv _ (by omega)
      have h := L.rfftOut_hom (thr := thr) hn e.real (fun t ht => hg t (lt_of_lt_of_le ht (rfftNeed_le hn)))
      have hh : ∀ {c d : A} {a a' b b' : C}, R c a a' → R d b b' → R (haddpz c d) (haddpz a b) (haddpz a' b') := fun ha hb =>
        L.pair (L.dadd (L.re ha) (L.im ha)) (L.dadd (L.re hb) (L.im hb))
      unfold dctTw
      split
      · exact L.ofD_hom (L.re (hh (L.muld _ _ (h t ht)) (L.muld _ _ (h (t + 1) (by omega)))))
      · exact L.ofD_hom (L.im (hh (L.muld _ _ (h (t - 1) (by omega))) (L.muld _ _ (h t ht))))

end real

end HomLaws
end OTFFT
