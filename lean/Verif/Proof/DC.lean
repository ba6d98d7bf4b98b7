/-
Element 0 of a transform: a tree of additions of the input elements, nothing else.
-/
import Verif.Proof.Impulse
import Verif.Spec.SumTree
import Mathlib.Algebra.BigOperators.Fin

noncomputable section

namespace OTFFT

set_option linter.unusedSectionVars false

variable {F C : Type} [DArith F] [CArith F C]

/-- `P c A z` may be read as "`z` is a sum of the input elements whose indices are in `A`, computed by a tree of additions whose depth
is at most `c`" -/
structure SumLaws (P : ℕ → Multiset ℕ → C → Prop) (Rep : C → Prop) : Prop where
  rep : ∀ {c A z}, P c A z → Rep z
  mono : ∀ {c c' A z}, c ≤ c' → P c A z → P c' A z
  add : ∀ {c A B a b}, P c A a → P c B b → P (c + 1) (A + B) (addpz a b)

/-- the normalisation leads from sums of one kind to sums of another; `I` is the twiddle factor 1 -/
structure Scl (P P' : ℕ → Multiset ℕ → C → Prop) (I : C) (mode : ScaleMode) (N : ℕ) : Prop where
  scl : ∀ {c A z}, P c A z → P' c A (scalepz N mode z)
  tw : ∀ {c A z}, P c A z → P' c A (mulpz (scalepz N mode I) z)
  mix : ∀ {c A z}, P c A z → P' c A (mixScale N mode z)

/-- result 0 adds all operands with depth `e` -/
def Sums (P : ℕ → Multiset ℕ → C → Prop) (e : ℕ) {q : ℕ} (f : (Fin q → C) → Fin q → C) : Prop :=
  ∀ (c : ℕ) (S : Fin q → Multiset ℕ) (X : Fin q → C), (∀ j, P c (S j) (X j)) → ∀ k : Fin q, k.val = 0 → P (c + e) (∑ j, S j) (f X k)

theorem sum_split (S : ℕ → Multiset ℕ) (m q : ℕ) : ∑ p ∈ Finset.range m, ∑ j : Fin q, S (p + m * j.val) = ∑ p ∈ Finset.range (q * m), S p := by
  rw [Finset.sum_comm, ← Finset.sum_range (fun j => ∑ p ∈ Finset.range m, S (p + m * j))]
  induction q with
  | zero => simp
  | succ q ih =>
    rw [Finset.sum_range_succ, ih, Nat.succ_mul, Finset.sum_range_add]
    congr 1
    exact Finset.sum_congr rfl fun p _ => by rw [Nat.add_comm, Nat.mul_comm]

theorem sum_split' (S : ℕ → Multiset ℕ) (m q : ℕ) : ∑ j : Fin q, ∑ p ∈ Finset.range m, S (j.val + q * p) = ∑ p ∈ Finset.range (q * m), S p := by
  rw [← Finset.sum_range (fun j => ∑ p ∈ Finset.range m, S (j + q * p)), Nat.mul_comm, ← sum_split S q m]
  refine Finset.sum_congr rfl fun p _ => ?_
  rw [Finset.sum_range]

namespace SumLaws
variable {O I : C} {Rep : C → Prop} {P P' : ℕ → Multiset ℕ → C → Prop} {inv : Bool} {mode : ScaleMode} {v : ℕ → C} {N : ℕ}

/-- no normalisation -/
theorem scl_1 (H : SumLaws P Rep) (L : FlatLaws O I Rep) (N : ℕ) : Scl P P I .scale_1 N :=
  ⟨fun h => h, fun h => by show P _ _ (mulpz I _); rw [L.Imul (H.rep h)]; exact h, fun h => h⟩

/-! ### butterflies -/

section
variable (H : SumLaws P Rep)
include H

theorem eq {c : ℕ} {A B : Multiset ℕ} {z : C} (h : P c A z) (e : A = B) : P c B z := e ▸ h

theorem sums2 : Sums P 1 (bf2.fn (V := C)) := by
  intro c S X h k hk
  obtain rfl : k = 0 := Fin.ext hk
  refine H.eq (H.add (h 0) (h 1)) ?_
  simp [Fin.sum_univ_succ]

theorem sums4 (inv : Bool) : Sums P 2 ((bf4 inv).fn (V := C)) := by
  intro c S X h k hk
  obtain rfl : k = 0 := Fin.ext hk
  cases inv <;> refine H.eq (H.add (H.add (h 0) (h 2)) (H.add (h 1) (h 3))) ?_ <;>
  · simp only [Fin.sum_univ_four]
    abel

theorem sums8 (inv : Bool) : Sums P 3 ((bf8 inv).fn (V := C)) := by
  intro c S X h k hk
  obtain rfl : k = 0 := Fin.ext hk
  cases inv <;> refine H.eq (H.add (H.add (H.add (h 0) (h 4)) (H.add (h 2) (h 6))) (H.add (H.add (h 1) (h 5)) (H.add (h 3) (h 7)))) ?_ <;>
  · simp only [Fin.sum_univ_eight]
    abel

theorem sums16 (inv : Bool) : Sums P 4 ((bf16 inv).fn (V := C)) := by
  intro c S X h k hk
  obtain rfl : k = 0 := Fin.ext hk
  have e : ∑ j, S j = S 0 + S 1 + S 2 + S 3 + S 4 + S 5 + S 6 + S 7 + S 8 + S 9 + S 10 + S 11 + S 12 + S 13 + S 14 + S 15 := by
    simp [Fin.sum_univ_castSucc]
  rw [e]
  cases inv <;> refine H.eq (H.add
      (H.add (H.add (H.add (h 0) (h 8)) (H.add (h 4) (h 12))) (H.add (H.add (h 2) (h 10)) (H.add (h 6) (h 14))))
      (H.add (H.add (H.add (h 1) (h 9)) (H.add (h 5) (h 13))) (H.add (H.add (h 3) (h 11)) (H.add (h 7) (h 15))))) ?_ <;>
  abel

theorem sums5 (w : C) : Sums P 4 (sum5 · w) := by
  intro c S X h k hk
  obtain rfl : k = 0 := Fin.ext hk
  refine H.eq (H.add (H.add (H.add (H.add (h 0) (h 1)) (H.mono (by omega) (h 2))) (H.mono (by omega) (h 3))) (H.mono (by omega) (h 4))) ?_
  rw [Fin.sum_univ_five]

theorem sums3 (w : C) : Sums P 2 (sum3 · w) := by
  intro c S X h k hk
  obtain rfl : k = 0 := Fin.ext hk
  refine H.eq (H.add (H.add (h 0) (h 1)) (H.mono (by omega) (h 2))) ?_
  rw [Fin.sum_univ_three]

theorem sums_mix5 (T : Fin 2 → C) : Sums P 4 (mix5.fn (V := C) · T) := by
  intro c S X h k hk
  have := H.sums5 (T 0) c S X h 0 rfl
  obtain rfl : k = 0 := Fin.ext hk
  exact this

theorem sums_mix3 (T : Fin 2 → C) : Sums P 2 (mix3.fn (V := C) · T) := by
  intro c S X h k hk
  have := H.sums3 (T 0) c S X h 0 rfl
  obtain rfl : k = 0 := Fin.ext hk
  exact this

theorem sums_dif {q e : ℕ} {B : BF q} (hB : Sums P e (B.fn (V := C))) (T : Fin (q - 1) → C) : Sums P e (difOut B · T) := by
  intro c S X h k hk
  show P _ _ (difOut B X T k)
  unfold difOut
  rw [dif_pos hk]
  exact hB c S X h k hk

theorem sums_dit (L : FlatLaws O I Rep) {q e : ℕ} {B : BF q} (hB : Sums P e (B.fn (V := C))) {T : Fin (q - 1) → C} (hT : ∀ k, T k = I) : Sums P e (ditOut B · T) := by
  intro c S X h k hk
  show P _ _ (ditOut B X T k)
  unfold ditOut
  refine hB c S _ (fun j => ?_) k hk
  split
  · exact h j
  · rw [hT, L.Imul (H.rep (h j))]; exact h j

theorem any_list (L : FlatLaws O I Rep) {q c : ℕ} {x w : ℕ → C} (hw : w 0 = I) {S : ℕ → Multiset ℕ} : ∀ (l : List ℕ), (∀ j ∈ l, P c (S j) (x j)) →
    ∀ {d A z}, P (c + d) A z → P (c + d + l.length) (A + (l.map S).sum) (anySum q 0 x w l z)
  | [], _, d, A, z, hz => by simpa [anySum] using hz
  | j :: js, h, d, A, z, hz => by
    unfold anySum
    rw [Nat.zero_mul, Nat.zero_mod, hw, L.mulI (H.rep (h j (by simp)))]
    have := any_list L (q := q) (w := w) hw js (fun k hk => h k (by simp [hk])) (d := d + 1) (H.add hz (H.mono (Nat.le_add_right c d) (h j (by simp))))
    rw [List.map_cons, List.sum_cons, ← add_assoc, List.length_cons]
    exact H.mono (by omega) this

theorem sums_any (L : FlatLaws O I Rep) {q : ℕ} [NeZero q] {w : ℕ → C} (hw : w 0 = I) {tv : Option (ℕ → ℕ → C)} (ht : ∀ t ∈ tv, ∀ p, t p 0 = I) (p : ℕ) :
    Sums P (q - 1) (anyG q w tv p) := by
  intro c S X h k hk
  have hq : 0 < q := Nat.pos_of_ne_zero (NeZero.ne q)
  have a : P (c + (q - 1)) (∑ j, S j) (anySum q 0 (fun j => X (Fin.ofNat q j)) w (List.range q) O) := by
    obtain ⟨m, rfl⟩ : ∃ m, q = m + 1 := ⟨q - 1, by omega⟩
    rw [List.range_succ_eq_map]
    unfold anySum
    rw [Nat.zero_mul, Nat.zero_mod, hw, L.mulI (H.rep (h _)), L.Oadd (H.rep (h _))]
    refine H.mono ?_ (H.eq (H.any_list L hw (d := 0) (S := fun j => S (Fin.ofNat _ j)) _ (fun j _ => h _) (h _)) ?_)
    · simp
    rw [Fin.sum_univ_succ]
    congr 1
    rw [List.map_map, ← List.sum_ofFn, List.ofFn_eq_map]
    have hr : List.range m = (List.finRange m).map Fin.val := by
      apply List.ext_getElem <;> simp
    rw [hr, List.map_map]
    congr 1
    refine List.map_congr_left fun j _ => ?_
    show S (Fin.ofNat (m + 1) (j.val + 1)) = S j.succ
    exact congrArg S (Fin.ext (Nat.mod_eq_of_lt (by simp)))
  unfold anyG anyVal
  rw [L.zero, hk]
  cases tv with
  | none => exact a
  | some t =>
    show P _ _ (mulpz _ (t p 0))
    rw [ht t rfl, L.mulI (H.rep a)]
    exact a

end

/-! ### stages -/

section stages
variable {q m s t c e : ℕ} [NeZero q] {G : ℕ → (Fin q → C) → Fin q → C} {S : ℕ → Multiset ℕ}

theorem dif_stage (hG : ∀ p, Sums P e (G p)) (ht : t < s) (hv : ∀ p < q * m, P c (S p) (v (t + s * p))) :
    ∀ p < m, P (c + e) (∑ j : Fin q, S (p + m * j.val)) (difPure q m s G v (t + q * s * p)) := by
  intro p hp
  have hq : 0 < q := Nat.pos_of_ne_zero (NeZero.ne q)
  have e1 : (t + q * s * p) % s = t := by
    rw [show q * s * p = s * (q * p) by ring, Nat.add_mul_mod_self_left, Nat.mod_eq_of_lt ht]
  have e2 : (t + q * s * p) / s = q * p := by
    rw [show q * s * p = s * (q * p) by ring, Nat.add_mul_div_left _ _ (by omega), Nat.div_eq_of_lt ht, Nat.zero_add]
  unfold difPure
  rw [e1, e2, Nat.mul_div_cancel_left _ hq]
  refine hG p _ _ _ (fun j => hv _ ?_) _ (by simp)
  have := j.isLt
  calc p + m * j.val < m * (j.val + 1) := by rw [Nat.mul_succ]; omega
    _ ≤ m * q := Nat.mul_le_mul_left _ this
    _ = q * m := Nat.mul_comm _ _

theorem dit_stage (hG : Sums P e (G 0)) (ht : t < s) (hv : ∀ j : Fin q, P c (S j.val) (v (t + s * j.val))) :
    P (c + e) (∑ j : Fin q, S j.val) (ditPure q m s G v t) := by
  unfold ditPure
  rw [Nat.div_eq_of_lt ht, Nat.mod_eq_of_lt ht, Nat.zero_mod, Nat.mul_zero, Nat.zero_div]
  simp only [Nat.zero_add]
  exact hG _ _ _ hv _ (by simp)

end stages

/-! ### Stockham transforms -/

section stock
variable {s n t c : ℕ}

theorem end_sum (H' : SumLaws P' Rep) (hs : Scl P P' I mode N) {l : ℕ} (hn : n = 2 ^ l) (h1 : 1 ≤ l) (h4 : l ≤ 4) {S : ℕ → Multiset ℕ} (ht : t < s) (hN : n * s = N)
    (hv : ∀ p < n, P c (S p) (v (t + s * p))) : P' (c + l) (∑ p ∈ Finset.range n, S p) (endPure inv mode n s v t) := by
  have key : ∀ {q : ℕ} [NeZero q] {B : BF q}, q * s = N → Sums P' l (B.fn (V := C)) → (∀ p < q, P c (S p) (v (t + s * p))) →
      P' (c + l) (∑ p ∈ Finset.range q, S p) (difPure q 1 s (endG B (q * s) mode) v t) := fun {q} _ {B} hN hB hv => by
    rw [hN]
    have := dif_stage (P := P') (q := q) (m := 1) (s := s) (v := fun t => scalepz N mode (v t)) (S := S) (G := fun _ => B.fn (V := C)) (fun _ => hB) ht
      (fun p hp => hs.scl (hv p (by simpa using hp))) 0 (by omega)
    rw [Finset.sum_range]
    have e : difPure q 1 s (endG B N mode) v t = difPure q 1 s (fun _ => B.fn (V := C)) (fun t => scalepz N mode (v t)) t := rfl
    rw [e]
    simpa using this
  unfold endPure
  obtain rfl | rfl | rfl | rfl : l = 1 ∨ l = 2 ∨ l = 3 ∨ l = 4 := by omega
  all_goals norm_num at hn; subst hn
  · exact key hN H'.sums2 hv
  · exact key hN (H'.sums4 _) hv
  · exact key hN (H'.sums8 _) hv
  · exact key hN (H'.sums16 _) hv

section recs
variable {q e : ℕ} [NeZero q] {B : BF q} {T : ℕ → Fin (q - 1) → C}

theorem difRec_sum (H : SumLaws P Rep) (H' : SumLaws P' Rep) (hs : Scl P P' I mode N) (hB : Sums P e (B.fn (V := C))) (hq : q = 2 ^ e) (e2 : 2 ≤ e) (e4 : e ≤ 4) (l : ℕ) :
    ∀ {n s t c : ℕ} {v : ℕ → C} {S : ℕ → Multiset ℕ}, n = 2 ^ l → 1 ≤ l → t < s → n * s = N → (∀ p < n, P c (S p) (v (t + s * p))) →
      P' (c + l) (∑ p ∈ Finset.range n, S p) (difRec q B inv T mode n s v t) := by
  induction l using Nat.strong_induction_on with
  | _ l ih =>
    intro n s t c v S hn hl ht hsN hv
    have hr := LinLaws.le16 hq e2 e4
    rw [difRec.eq_def]
    by_cases hc : n ≤ q ∨ q < 2
    · rw [dif_pos hc]
      have hnr : n ≤ 16 := by omega
      exact H'.end_sum hs hn hl ((Nat.pow_le_pow_iff_right (by omega : 1 < 2)).1 (by omega : 2 ^ l ≤ 2 ^ 4)) ht hsN hv
    · rw [dif_neg hc]
      obtain ⟨hel, hd, hN1, -⟩ := LinLaws.split hq hn rfl (s := 1) (by omega)
      have hN1 : n = q * (n / q) := by omega
      have hq0 : 0 < q := Nat.pos_of_ne_zero (NeZero.ne q)
      have := ih (l - e) (by omega) (s := q * s) (t := t) hd (by omega) (by have := Nat.le_mul_of_pos_left s hq0; omega)
        (by rw [← Nat.mul_assoc, Nat.mul_comm (n / q) q, ← hN1, hsN])
        (dif_stage (q := q) (m := n / q) (G := difG B T s) (fun p => H.sums_dif hB _) ht (by rwa [← hN1]))
      rw [sum_split, ← hN1] at this
      exact H'.mono (by omega) this

theorem ditRec_sum (H' : SumLaws P' Rep) (hs : Scl P P' I mode N) (L : FlatLaws O I Rep) (hB : Sums P' e (B.fn (V := C))) (hT : ∀ k, T 0 k = I) (hq : q = 2 ^ e) (e2 : 2 ≤ e) (e4 : e ≤ 4) (l : ℕ) :
    ∀ {n s t c : ℕ} {v : ℕ → C} {S : ℕ → Multiset ℕ}, n = 2 ^ l → 1 ≤ l → t < s → n * s = N → (∀ p < n, P c (S p) (v (t + s * p))) →
      P' (c + l) (∑ p ∈ Finset.range n, S p) (ditRec q B inv T mode n s v t) := by
  induction l using Nat.strong_induction_on with
  | _ l ih =>
    intro n s t c v S hn hl ht hsN hv
    have hr := LinLaws.le16 hq e2 e4
    rw [ditRec.eq_def]
    by_cases hc : n ≤ q ∨ q < 2
    · rw [dif_pos hc]
      have hnr : n ≤ 16 := by omega
      exact H'.end_sum hs hn hl ((Nat.pow_le_pow_iff_right (by omega : 1 < 2)).1 (by omega : 2 ^ l ≤ 2 ^ 4)) ht hsN hv
    · rw [dif_neg hc]
      obtain ⟨hel, hd, hN1, -⟩ := LinLaws.split hq hn rfl (s := 1) (by omega)
      have hN1 : n = q * (n / q) := by omega
      rw [hN1, ← sum_split', ← hN1]
      refine H'.mono (c := c + (l - e) + e) (by omega) (dit_stage (P := P') (G := ditG B T s) (S := fun j => ∑ p ∈ Finset.range (n / q), S (j + q * p)) (H'.sums_dit L hB (T := T (s * 0)) (by simpa using hT)) ht (fun j => ?_))
      have hj := j.isLt
      refine ih (l - e) (by omega) hd (by omega) ?_ (by rw [← Nat.mul_assoc, Nat.mul_comm (n / q) q, ← hN1, hsN]) (fun p hp => ?_)
      · calc t + s * j.val < s * (j.val + 1) := by rw [Nat.mul_succ]; omega
          _ ≤ s * q := Nat.mul_le_mul_left _ hj
          _ = q * s := Nat.mul_comm _ _
      · rw [show t + s * j.val + q * s * p = t + s * (j.val + q * p) by ring]
        refine hv _ ?_
        rw [hN1]
        calc j.val + q * p < q * (p + 1) := by rw [Nat.mul_succ]; omega
          _ ≤ q * (n / q) := Nat.mul_le_mul_left _ hp

end recs

variable {S : ℕ → Multiset ℕ}

theorem stock_sum (H : SumLaws P Rep) (H' : SumLaws P' Rep) (L : FlatLaws O I Rep) (hs : Scl P P' I mode N) {th : ℕ} {dit : Bool} {rad : Radix} {l : ℕ} (hN : N = 2 ^ l) (hl : 1 ≤ l)
    (hv : ∀ t < N, P c (S t) (v t)) : P' (c + l) (∑ p ∈ Finset.range N, S p) (stockOut C th dit rad inv mode N v 0) := by
  have h : ∀ p < N, P c (S p) (v (0 + 1 * p)) := by simpa using hv
  cases dit <;> cases rad
  · exact H.difRec_sum H' hs (e := 2) (H.sums4 _) (by norm_num) (by omega) (by omega) l hN hl (by omega) (by omega) h
  · exact H.difRec_sum H' hs (e := 3) (H.sums8 _) (by norm_num) (by omega) (by omega) l hN hl (by omega) (by omega) h
  · exact H.difRec_sum H' hs (e := 4) (H.sums16 _) (by norm_num) (by omega) (by omega) l hN hl (by omega) (by omega) h
  · exact H'.ditRec_sum hs L (e := 2) (H'.sums4 _) (L.tw0 _ _ _ _) (by norm_num) (by omega) (by omega) l hN hl (by omega) (by omega) h
  · exact H'.ditRec_sum hs L (e := 3) (H'.sums8 _) (L.tw0 _ _ _ _) (by norm_num) (by omega) (by omega) l hN hl (by omega) (by omega) h
  · exact H'.ditRec_sum hs L (e := 4) (H'.sums16 _) (L.tw0 _ _ _ _) (by norm_num) (by omega) (by omega) l hN hl (by omega) (by omega) h

/-! ### six-step and eight-step -/

theorem row_sum (H : SumLaws P Rep) (L : FlatLaws O I Rep) {l : ℕ} (hn : n = 2 ^ l) (hl : 1 ≤ l) (hv : ∀ t < n, P c (S t) (v t)) :
    P (c + l) (∑ p ∈ Finset.range n, S p) (difRec 8 (bf8 inv) inv (stockhamTw C .serial 8 n inv) .scale_1 n 1 v 0) :=
  H.difRec_sum H (H.scl_1 L n) (e := 3) (H.sums8 _) (by norm_num) (by omega) (by omega) l hn hl (by omega) (by omega) (by simpa using hv)

theorem six_sum (H : SumLaws P Rep) (H' : SumLaws P' Rep) (L : FlatLaws O I Rep) (hs : Scl P P' I mode (n * n)) {l : ℕ} (hn : n = 2 ^ l) (hl : 1 ≤ l)
    (hv : ∀ t < n * n, P c (S t) (v t)) : P' (c + (l + l)) (∑ p ∈ Finset.range (n * n), S p) (sixPure inv mode n v 0) := by
  have h0 : 0 < n := by rw [hn]; positivity
  -- first pass of rows, element 0 of row `r`
  have a1 : ∀ r < n, P (c + l) (∑ p ∈ Finset.range n, S (r + n * p)) (sixRowsV inv n (transpV n v) (r * n)) := fun r hr => by
    unfold sixRowsV
    rw [Nat.mul_mod_left, Nat.mul_div_cancel _ h0]
    refine H.row_sum L (S := fun p => S (r + n * p)) hn hl fun p hp => ?_
    show P _ _ (v ((r * n + p) / n + (r * n + p) % n * n))
    have e1 : (r * n + p) / n = r := by rw [Nat.add_comm, Nat.add_mul_div_right _ _ h0, Nat.div_eq_of_lt hp, Nat.zero_add]
    have e2 : (r * n + p) % n = p := by rw [Nat.add_comm, Nat.add_mul_mod_self_right, Nat.mod_eq_of_lt hp]
    rw [e1, e2, Nat.mul_comm p n]
    exact hv _ (by
      calc r + n * p < n * (p + 1) := by rw [Nat.mul_succ]; omega
        _ ≤ n * n := Nat.mul_le_mul_left _ hp)
  -- twiddle pass: row 0 is multiplied by one and by the normalisation
  have a2 : ∀ r < n, P' (c + l) (∑ p ∈ Finset.range n, S (r + n * p)) (sixMultV inv mode n (sixRowsV inv n (transpV n v)) r) := fun r hr => by
    show P' _ _ (mulpz (scalepz (n * n) mode (cj inv (sixTw C n (r % n) (r / n)))) (sixRowsV inv n (transpV n v) (r / n + r % n * n)))
    rw [Nat.div_eq_of_lt hr, Nat.mod_eq_of_lt hr, L.sixTw_col, L.cjI, Nat.zero_add]
    exact hs.tw (a1 r hr)
  show P' _ _ (sixRowsV inv n (sixMultV inv mode n (sixRowsV inv n (transpV n v))) (0 / n + 0 % n * n))
  rw [Nat.zero_div, Nat.zero_mod, Nat.zero_mul, Nat.add_zero]
  unfold sixRowsV
  rw [Nat.zero_mod, Nat.zero_div, Nat.zero_mul]
  rw [← Nat.add_assoc]
  refine H'.eq (H'.row_sum L (S := fun r => ∑ p ∈ Finset.range n, S (r + n * p)) hn hl fun r hr => ?_) ?_
  · rw [Nat.zero_add]; exact a2 r hr
  · rw [← sum_split' S n n]
    exact Finset.sum_range _

theorem eight_sum (H' : SumLaws P' Rep) (L : FlatLaws O I Rep) (hs : Scl P P' I mode (8 * (n * n))) {l : ℕ} (hn : n = 2 ^ l) (hl : 1 ≤ l)
    (hv : ∀ t < 8 * (n * n), P c (S t) (v t)) : P' (c + (l + l + 3)) (∑ p ∈ Finset.range (8 * (n * n)), S p) (eightPure inv mode n v 0) := by
  have h0 : 0 < n := by rw [hn]; positivity
  have h1 : 0 < n * n := Nat.mul_pos h0 h0
  show P' _ _ (sixPure inv .scale_1 n (fun j => eightPreV inv mode (n * n) v ((0 / 8 + n * n * (0 % 8)) / (n * n) * (n * n) + j)) ((0 / 8 + n * n * (0 % 8)) % (n * n)))
  rw [show 0 / 8 + n * n * (0 % 8) = 0 by simp, Nat.zero_div, Nat.zero_mod, Nat.zero_mul, ← sum_split]
  refine H'.mono (c := c + 3 + (l + l)) (by omega) (H'.six_sum H' L (H'.scl_1 L _) (S := fun p => ∑ j : Fin 8, S (p + n * n * j.val)) hn hl fun p hp => ?_)
  rw [Nat.zero_add]
  show P' _ _ (difOut (bf8 inv) (fun j => scalepz (8 * (n * n)) mode (v (p % (n * n) + n * n * j.val))) _ _)
  rw [Nat.mod_eq_of_lt hp, Nat.div_eq_of_lt hp]
  exact H'.sums_dif (H'.sums8 inv) _ _ _ _ (fun j => hs.scl (hv _ (by rw [Nat.mul_comm 8]; exact idx_lt hp j.isLt))) _ (by simp)

theorem sixOut_sum (H : SumLaws P Rep) (H' : SumLaws P' Rep) (L : FlatLaws O I Rep) (hs : Scl P P' I mode N) {l : ℕ} (hN : N = 2 ^ l) (hl : 1 ≤ l)
    (hv : ∀ t < N, P c (S t) (v t)) : P' (c + l) (∑ p ∈ Finset.range N, S p) (sixOut inv mode l v 0) := by
  unfold sixOut
  by_cases h5 : l ≤ 5
  · rw [if_pos h5]
    subst hN
    exact H.difRec_sum H' hs (e := 3) (H.sums8 _) (by norm_num) (by omega) (by omega) l rfl hl (by omega) (by omega) (by simpa using hv)
  · rw [if_neg h5]
    by_cases h2 : l % 2 = 1
    · rw [if_pos h2]
      have e := pow_split_odd h5 h2
      rw [hN, e] at hv hs ⊢
      exact H'.mono (by omega) (H'.eight_sum L hs (l := l / 2 - 1) rfl (by omega) hv)
    · rw [if_neg h2]
      rw [hN, pow_split_even h2] at hv hs ⊢
      exact H'.mono (by omega) (H.six_sum H' L hs (l := l / 2) rfl (by omega) hv)

end stock

/-! ### mixed radix -/

section mixed
variable {wv : ℕ → C}

theorem addDepth_mul {a b : ℕ} (ha : a ≠ 0) (hb : b ≠ 0) : addDepth (a * b) = addDepth a + addDepth b := by
  unfold addDepth
  rw [((Nat.perm_primeFactorsList_mul ha hb).map _).sum_eq, List.map_append, List.sum_append]

theorem addDepth_prime {p : ℕ} (hp : p.Prime) : addDepth p = p - 1 := by
  unfold addDepth
  rw [Nat.primeFactorsList_prime hp]
  simp

theorem addDepth_pow (l : ℕ) : addDepth (2 ^ l) = l := by
  unfold addDepth
  rw [Nat.Prime.primeFactorsList_pow Nat.prime_two]
  simp

theorem addDepth_2 : addDepth 2 = 1 := addDepth_pow 1
theorem addDepth_4 : addDepth 4 = 2 := addDepth_pow 2
theorem addDepth_8 : addDepth 8 = 3 := addDepth_pow 3
theorem addDepth_5 : addDepth 5 = 4 := addDepth_prime Nat.prime_five
theorem addDepth_3 : addDepth 3 = 2 := addDepth_prime Nat.prime_three

theorem core_sum {q b m s t c e : ℕ} [NeZero q] {S : BFT q b} {tw : ℕ → Fin b → ℕ} {A : ℕ → Multiset ℕ}
    (hS : ∀ T, Sums P e (S.fn (V := C) · T)) (ht : t < s) (hv : ∀ p < q * m, P c (A p) (v (t + s * p))) :
    ∀ p < m, P (c + e) (∑ j : Fin q, A (p + m * j.val)) (difPure q m s (coreG S wv tw) v (t + q * s * p)) :=
  dif_stage (fun _ => hS _) ht hv

theorem last_sum {q s t c e : ℕ} [NeZero q] {G : ℕ → (Fin q → C) → Fin q → C} {A : ℕ → Multiset ℕ}
    (hG : Sums P e (G 0)) (ht : t < s) (hv : ∀ p < q, P c (A p) (v (t + s * p))) :
    P (c + e) (∑ p ∈ Finset.range q, A p) (difPure q 1 s G v t) := by
  unfold difPure
  rw [Nat.div_eq_of_lt ht, Nat.mod_eq_of_lt ht, Nat.zero_div, Finset.sum_range]
  simp only [Nat.zero_add, Nat.one_mul]
  exact hG _ _ _ (fun j => hv _ j.isLt) _ (by simp)

theorem mixAny_sum (H : SumLaws P Rep) (L : FlatLaws O I Rep) (hw : wv 0 = I) (n : ℕ) :
    ∀ {s t c : ℕ} {v : ℕ → C} {S : ℕ → Multiset ℕ}, 2 ≤ n → t < s → (∀ p < n, P c (S p) (v (t + s * p))) →
      P (c + addDepth n) (∑ p ∈ Finset.range n, S p) (mixAnyRec false N wv n s v t) := by
  induction n using Nat.strong_induction_on with
  | _ n ih =>
    intro s t c v S h2 ht hv
    have hpr := Nat.minFac_prime (n := n) (by omega)
    have hdv := Nat.minFac_dvd n
    have : NeZero n.minFac := ⟨hpr.ne_zero⟩
    rw [mixAnyRec.eq_def, dif_neg (by omega)]
    by_cases hp : n.minFac = n
    · rw [if_pos hp]
      have := last_sum (q := n.minFac) (s := s) (A := S) (v := v) (H.sums_any L (w := fun a => wv (mixIdx false N (s * a))) (by simpa [mixIdx] using hw) (tv := none) (by simp) 0) ht (by rwa [hp])
      rw [show (∑ p ∈ Finset.range n.minFac, S p) = ∑ p ∈ Finset.range n, S p by rw [hp], ← addDepth_prime hpr,
        show addDepth n.minFac = addDepth n by rw [hp]] at this
      exact this
    · rw [if_neg hp]
      obtain ⟨hlt, hge⟩ := LinLaws.div_ge hpr.two_le h2 (Nat.mod_eq_zero_of_dvd hdv) (fun e => hp e.symm)
      have hN : n = n.minFac * (n / n.minFac) := (Nat.mul_div_cancel' hdv).symm
      have h := ih _ hlt (s := n.minFac * s) (t := t) hge (by have := Nat.le_mul_of_pos_left s hpr.pos; omega)
        (dif_stage (q := n.minFac) (m := n / n.minFac) (S := S) (v := v)
          (G := anyG n.minFac (fun a => wv (mixIdx false N (n / n.minFac * s * a))) (some fun p i => wv (mixIdx false N (i * (s * p)))))
          (fun p => H.sums_any L (by simpa [mixIdx] using hw) (by
            intro t ht p
            cases ht
            simpa [mixIdx] using hw) p) ht (by rwa [← hN]))
      rw [sum_split, ← hN] at h
      have hd := addDepth_mul (a := n.minFac) (b := n / n.minFac) (by have := hpr.pos; omega) (by omega)
      rw [← hN, addDepth_prime hpr] at hd
      exact H.mono (by omega) h

theorem mixRec_sum (H : SumLaws P Rep) (L : FlatLaws O I Rep) (hw : wv 0 = I) (n : ℕ) :
    ∀ {s t c : ℕ} {v : ℕ → C} {S : ℕ → Multiset ℕ}, (inv = true → ∀ p, p.Prime → p ∣ n → p ≤ 5) → 2 ≤ n → t < s → (∀ p < n, P c (S p) (v (t + s * p))) →
      P (c + addDepth n) (∑ p ∈ Finset.range n, S p) (mixRec inv N wv n s v t) := by
  induction n using Nat.strong_induction_on with
  | _ n ih =>
    intro s t c v S hsm h2 ht hv
    rw [mixRec.eq_def, dif_neg (by omega)]
    have step : ∀ {q : ℕ} {u : ℕ → C}, 2 ≤ q → n % q = 0 → n ≠ q → (∀ p < n / q, P (c + addDepth q) (∑ j : Fin q, S (p + n / q * j.val)) (u (t + q * s * p))) →
        P (c + addDepth n) (∑ p ∈ Finset.range n, S p) (mixRec inv N wv (n / q) (q * s) u t) := fun {q u} hq hd hne hu => by
      obtain ⟨hlt, hge⟩ := LinLaws.div_ge hq h2 hd hne
      have hN : n = q * (n / q) := (Nat.mul_div_cancel' (Nat.dvd_of_mod_eq_zero hd)).symm
      have h := ih _ hlt (s := q * s) (t := t) (v := u) (fun hi p hp hd => hsm hi p hp (hd.trans (Nat.div_dvd_of_dvd (Nat.dvd_of_mod_eq_zero ‹_›)))) hge
        (by have := Nat.le_mul_of_pos_left s (by omega : 0 < q); omega) hu
      rw [sum_split, ← hN] at h
      have hdd := addDepth_mul (a := q) (b := n / q) (by omega) (by omega)
      rw [← hN] at hdd
      exact H.mono (by omega) h
    have stage : ∀ {q b : ℕ} [NeZero q] {B : BFT q b} {tw : ℕ → Fin b → ℕ}, n % q = 0 → (∀ T, Sums P (addDepth q) (B.fn (V := C) · T)) →
        ∀ p < n / q, P (c + addDepth q) (∑ j : Fin q, S (p + n / q * j.val)) (difPure q (n / q) s (coreG B wv tw) v (t + q * s * p)) := fun {q b} _ {B tw} hd hB => by
      refine core_sum hB ht ?_
      rwa [Nat.mul_div_cancel' (Nat.dvd_of_mod_eq_zero hd)]
    by_cases h8 : n % 8 = 0
    · rw [if_pos h8]
      by_cases hn : n = 8
      · rw [if_pos hn]; subst hn
        rw [addDepth_8]
        exact last_sum (H.sums8 inv) ht hv
      · rw [if_neg hn]
        refine step (by omega) h8 hn ?_
        by_cases h1 : 2 ≤ s
        · rw [if_pos h1]
          exact stage h8 fun T => addDepth_8.symm ▸ H.sums_dif (H.sums8 inv) _
        · rw [if_neg h1]
          exact stage h8 fun T => addDepth_8.symm ▸ H.sums_dif (H.sums8 inv) (fun k => wpow (cj inv (T 0)) (k.val + 1))
    rw [if_neg h8]
    by_cases h4 : n % 4 = 0
    · rw [if_pos h4]
      by_cases hn : n = 4
      · rw [if_pos hn]; subst hn
        rw [addDepth_4]
        exact last_sum (H.sums4 inv) ht hv
      · rw [if_neg hn]
        refine step (by omega) h4 hn ?_
        by_cases h1 : 2 ≤ s
        · rw [if_pos h1]
          exact stage h4 fun T => addDepth_4.symm ▸ H.sums_dif (H.sums4 inv) _
        · rw [if_neg h1]
          exact stage h4 fun T => addDepth_4.symm ▸ H.sums_dif (H.sums4 inv) (fun k => wpow (cj inv (T 0)) (k.val + 1))
    rw [if_neg h4]
    by_cases h22 : n % 2 = 0
    · rw [if_pos h22]
      by_cases hn : n = 2
      · rw [if_pos hn]; subst hn
        rw [addDepth_2]
        exact last_sum H.sums2 ht hv
      · rw [if_neg hn]
        exact step (by omega) h22 hn (stage h22 fun T => addDepth_2.symm ▸ H.sums_dif H.sums2 (fun _ => T 0))
    rw [if_neg h22]
    by_cases h5 : n % 5 = 0
    · rw [if_pos h5]
      by_cases hn : n = 5
      · rw [if_pos hn]; subst hn
        rw [addDepth_5]
        exact last_sum (H.sums5 _) ht hv
      · rw [if_neg hn]
        exact step (by omega) h5 hn (stage h5 fun T => addDepth_5.symm ▸ H.sums_mix5 T)
    rw [if_neg h5]
    by_cases h3 : n % 3 = 0
    · rw [if_pos h3]
      by_cases hn : n = 3
      · rw [if_pos hn]; subst hn
        rw [addDepth_3]
        exact last_sum (H.sums3 _) ht hv
      · rw [if_neg hn]
        exact step (by omega) h3 hn (stage h3 fun T => addDepth_3.symm ▸ H.sums_mix3 T)
    rw [if_neg h3]
    cases inv with
    | false => exact H.mixAny_sum L hw n h2 ht hv
    | true =>
      exfalso
      have hpr := Nat.minFac_prime (n := n) (by omega)
      have hd := Nat.minFac_dvd n
      have h5' := hsm rfl _ hpr hd
      have h2' := hpr.two_le
      generalize n.minFac = k at *
      interval_cases k
      · omega
      · omega
      · omega
      · omega

end mixed

/-! ### the transforms -/

section all
variable {thr : Thr} {kind : AlgoKind} {n c : ℕ} {S : ℕ → Multiset ℕ}

theorem algo_sum (H : SumLaws P Rep) (H' : SumLaws P' Rep) (L : FlatLaws O I Rep) (hs : Scl P P' I mode n) (hk : kind.Usable n) (h2 : 2 ≤ n)
    (hm : inv = true → kind = .mixed → ∀ p, p.Prime → p ∣ n → p ≤ 5)
    (hv : ∀ t < n, P c (S t) (v t)) : P' (c + addDepth n) (∑ p ∈ Finset.range n, S p) (algoOut C thr kind inv mode n v 0) := by
  unfold algoOut
  cases kind with
  | stock dit rad =>
    obtain ⟨l, rfl, hl, _⟩ := hk
    rw [addDepth_pow]
    exact H.stock_sum H' L hs rfl hl hv
  | six =>
    obtain ⟨l, rfl, hl, _⟩ := hk
    rw [addDepth_pow]
    simp only [logLoop_pow]
    exact H.sixOut_sum H' L hs rfl hl hv
  | mixed => exact hs.mix (H.mixRec_sum L (L.mix0 n) n (fun hi => hm hi rfl) h2 (by omega) (by simpa using hv))

theorem fft_sum_scaled (H : SumLaws P Rep) (H' : SumLaws P' Rep) (L : FlatLaws O I Rep) (hs : Scl P P' I mode n) (h2 : 2 ≤ n)
    (hm : inv = true → ∀ p, p.Prime → p ∣ n → p ≤ 5)
    (hv : ∀ t < n, P c (S t) (v t)) : P' (c + addDepth n) (∑ p ∈ Finset.range n, S p) (fftOut C thr inv mode n v 0) := by
  unfold fftOut
  cases hd : dispatch (logOf n) with
  | none =>
    have := dispatch_none hd
    rw [show n = 2 ^ 0 from logOf_some this] at h2
    omega
  | some kind => exact H.algo_sum H' L hs (AlgoKind.usable_of_dispatch hd) h2 (fun h _ => hm h) hv

theorem fft_sum (H : SumLaws P Rep) (L : FlatLaws O I Rep) (h2 : 2 ≤ n) (hm : inv = true → ∀ p, p.Prime → p ∣ n → p ≤ 5)
    (hv : ∀ t < n, P c (S t) (v t)) : P (c + addDepth n) (∑ p ∈ Finset.range n, S p) (fftOut C thr inv .scale_1 n v 0) :=
  H.fft_sum_scaled H L (H.scl_1 L n) h2 hm hv

end all

end SumLaws

end OTFFT
