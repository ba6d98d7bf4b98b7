/-
Element n/2 of a transform of length n = 2^l: the sum of the input elements with even index minus the sum of those with odd index,
both computed by trees of additions.
-/
import Verif.Proof.DC

noncomputable section

namespace OTFFT

set_option linter.unusedSectionVars false

variable {F C : Type} [DArith F] [CArith F C]

/-- the index sets of the elements of parity `r` -/
def part (r : ℕ) (S : ℕ → Multiset ℕ) (p : ℕ) : Multiset ℕ := if p % 2 = r then S p else 0

theorem part_sum {r m q : ℕ} (hm : m % 2 = 0) (S : ℕ → Multiset ℕ) (p : ℕ) :
    part r (fun p => ∑ j : Fin q, S (p + m * j.val)) p = ∑ j : Fin q, part r S (p + m * j.val) := by
  unfold part
  have : ∀ j : Fin q, (p + m * j.val) % 2 = p % 2 := fun j => by
    obtain ⟨k, rfl⟩ : ∃ k, m = 2 * k := ⟨m / 2, by omega⟩
    rw [Nat.mul_assoc]; omega
  simp only [this]
  split
  · rfl
  · simp

theorem part_sum' {r m q : ℕ} (hq : q % 2 = 0) (S : ℕ → Multiset ℕ) (j : ℕ) :
    part r (fun j => ∑ p ∈ Finset.range m, S (j + q * p)) j = ∑ p ∈ Finset.range m, part r S (j + q * p) := by
  unfold part
  have : ∀ p, (j + q * p) % 2 = j % 2 := fun p => by
    obtain ⟨k, rfl⟩ : ∃ k, q = 2 * k := ⟨q / 2, by omega⟩
    rw [Nat.mul_assoc]; omega
  simp only [this]
  split
  · rfl
  · simp

/-- `z` is the difference of two sums: of the index sets of even and of odd number -/
def Diff (P : ℕ → Multiset ℕ → C → Prop) (c n : ℕ) (S : ℕ → Multiset ℕ) (z : C) : Prop :=
  ∃ a b, z = subpz a b ∧ P c (∑ p ∈ Finset.range n, part 0 S p) a ∧ P c (∑ p ∈ Finset.range n, part 1 S p) b

/-- result `q/2` is the sum of the even operands minus the sum of the odd ones -/
def Diffs (P : ℕ → Multiset ℕ → C → Prop) (e : ℕ) {q : ℕ} (f : (Fin q → C) → Fin q → C) : Prop :=
  ∀ (c : ℕ) (S : ℕ → Multiset ℕ) (X : Fin q → C), (∀ j : Fin q, P c (S j.val) (X j)) → ∀ k : Fin q, 2 * k.val = q → Diff P (c + e) q S (f X k)

namespace SumLaws
variable {O I : C} {Rep : C → Prop} {P P' : ℕ → Multiset ℕ → C → Prop} {inv : Bool} {mode : ScaleMode} {v : ℕ → C} {N : ℕ}

section
variable (H : SumLaws P Rep)
include H

theorem diff_mono {c c' n : ℕ} {S : ℕ → Multiset ℕ} {z : C} (hc : c ≤ c') (h : Diff P c n S z) : Diff P c' n S z := by
  obtain ⟨a, b, e, ha, hb⟩ := h
  exact ⟨a, b, e, H.mono hc ha, H.mono hc hb⟩

theorem diffs2 : Diffs P 0 (bf2.fn (V := C)) := by
  intro c S X h k hk
  obtain rfl : k = 1 := Fin.ext (by simp; omega)
  refine ⟨X 0, X 1, rfl, H.eq (h 0) ?_, H.eq (h 1) ?_⟩ <;> simp [Finset.sum_range_succ, part]

theorem diffs4 (inv : Bool) : Diffs P 1 ((bf4 inv).fn (V := C)) := by
  intro c S X h k hk
  obtain rfl : k = 2 := Fin.ext (by simp; omega)
  cases inv <;> refine ⟨addpz (X 0) (X 2), addpz (X 1) (X 3), rfl, H.eq (H.add (h 0) (h 2)) ?_, H.eq (H.add (h 1) (h 3)) ?_⟩ <;>
    simp [Finset.sum_range_succ, part]

theorem diffs8 (inv : Bool) : Diffs P 2 ((bf8 inv).fn (V := C)) := by
  intro c S X h k hk
  obtain rfl : k = 4 := Fin.ext (by simp; omega)
  cases inv <;> refine ⟨addpz (addpz (X 0) (X 4)) (addpz (X 2) (X 6)), addpz (addpz (X 1) (X 5)) (addpz (X 3) (X 7)), rfl,
    H.eq (H.add (H.add (h 0) (h 4)) (H.add (h 2) (h 6))) ?_, H.eq (H.add (H.add (h 1) (h 5)) (H.add (h 3) (h 7))) ?_⟩ <;>
  · simp [Finset.sum_range_succ, part]
    abel

theorem diffs16 (inv : Bool) : Diffs P 3 ((bf16 inv).fn (V := C)) := by
  intro c S X h k hk
  obtain rfl : k = 8 := Fin.ext (by simp; omega)
  cases inv <;> refine ⟨addpz (addpz (addpz (X 0) (X 8)) (addpz (X 4) (X 12))) (addpz (addpz (X 2) (X 10)) (addpz (X 6) (X 14))),
    addpz (addpz (addpz (X 1) (X 9)) (addpz (X 5) (X 13))) (addpz (addpz (X 3) (X 11)) (addpz (X 7) (X 15))), rfl,
    H.eq (H.add (H.add (H.add (h 0) (h 8)) (H.add (h 4) (h 12))) (H.add (H.add (h 2) (h 10)) (H.add (h 6) (h 14)))) ?_,
    H.eq (H.add (H.add (H.add (h 1) (h 9)) (H.add (h 5) (h 13))) (H.add (H.add (h 3) (h 11)) (H.add (h 7) (h 15)))) ?_⟩ <;>
  · simp [Finset.sum_range_succ, part]
    abel

theorem diffs_dit (L : FlatLaws O I Rep) {q e : ℕ} {B : BF q} (hB : Diffs P e (B.fn (V := C))) {T : Fin (q - 1) → C} (hT : ∀ k, T k = I) :
    Diffs P e (ditOut B · T) := by
  intro c S X h k hk
  show Diff P _ _ _ (ditOut B X T k)
  unfold ditOut
  refine hB c S _ (fun j => ?_) k hk
  split
  · exact h j
  · rw [hT, L.Imul (H.rep (h j))]; exact h j

end

/-! ### stages -/

section stages
variable {q m s t c e : ℕ} [NeZero q] {G : ℕ → (Fin q → C) → Fin q → C} {S : ℕ → Multiset ℕ}

theorem dif_diff (hG : Diffs P e (G 0)) (ht : t < s) {h : ℕ} (hq : q = 2 * h) (hv : ∀ p < q, P c (S p) (v (t + s * p))) :
    Diff P (c + e) q S (difPure q 1 s G v (t + s * h)) := by
  have h0 : 0 < q := Nat.pos_of_ne_zero (NeZero.ne q)
  have hs : 0 < s := by omega
  unfold difPure
  rw [Nat.add_mul_mod_self_left, Nat.mod_eq_of_lt ht, Nat.add_mul_div_left _ _ hs, Nat.div_eq_of_lt ht, Nat.zero_add,
    Nat.div_eq_of_lt (by omega : h < q)]
  simp only [Nat.zero_add, Nat.one_mul]
  refine hG _ _ _ (fun j => hv _ j.isLt) _ ?_
  simp only [Fin.val_ofNat]
  rw [Nat.mod_eq_of_lt (by omega), hq]

theorem dit_diff (hG : Diffs P e (G 0)) (ht : t < s) (hm : 0 < m) {h : ℕ} (hq : q = 2 * h) (hv : ∀ j : Fin q, P c (S j.val) (v (t + s * j.val))) :
    Diff P (c + e) q S (ditPure q m s G v (t + s * (m * h))) := by
  have h0 : 0 < q := Nat.pos_of_ne_zero (NeZero.ne q)
  have hs : 0 < s := by omega
  unfold ditPure
  rw [Nat.add_mul_mod_self_left, Nat.mod_eq_of_lt ht, Nat.add_mul_div_left _ _ hs, Nat.div_eq_of_lt ht, Nat.zero_add,
    Nat.mul_mod_right, Nat.mul_zero, Nat.mul_div_cancel_left _ hm]
  simp only [Nat.zero_add]
  refine hG _ _ _ hv _ ?_
  simp only [Fin.val_ofNat]
  rw [Nat.mod_eq_of_lt (by omega), hq]

end stages

/-! ### Stockham transforms -/

section stock
variable {s n t c : ℕ}

theorem end_diff (H' : SumLaws P' Rep) (hs : Scl P P' I mode N) {l : ℕ} (hn : n = 2 ^ l) (h1 : 1 ≤ l) (h4 : l ≤ 4) {S : ℕ → Multiset ℕ} (ht : t < s) (hN : n * s = N)
    (hv : ∀ p < n, P c (S p) (v (t + s * p))) : Diff P' (c + (l - 1)) n S (endPure inv mode n s v (t + s * (n / 2))) := by
  have key : ∀ {q : ℕ} [NeZero q] {B : BF q}, q * s = N → q % 2 = 0 → Diffs P' (l - 1) (B.fn (V := C)) → (∀ p < q, P c (S p) (v (t + s * p))) →
      Diff P' (c + (l - 1)) q S (difPure q 1 s (endG B (q * s) mode) v (t + s * (q / 2))) := fun {q} _ {B} hN h2 hB hv => by
    rw [hN]
    exact dif_diff (P := P') (q := q) (s := s) (v := fun t => scalepz N mode (v t)) (S := S) (G := fun _ => B.fn (V := C)) hB ht (by omega)
      (fun p hp => hs.scl (hv p hp))
  unfold endPure
  obtain rfl | rfl | rfl | rfl : l = 1 ∨ l = 2 ∨ l = 3 ∨ l = 4 := by omega
  all_goals norm_num at hn; subst hn
  · exact key hN rfl H'.diffs2 hv
  · exact key hN rfl (H'.diffs4 _) hv
  · exact key hN rfl (H'.diffs8 _) hv
  · exact key hN rfl (H'.diffs16 _) hv

theorem pow_even {l : ℕ} (h : 1 ≤ l) : 2 ^ l % 2 = 0 := by
  obtain ⟨k, rfl⟩ : ∃ k, l = k + 1 := ⟨l - 1, by omega⟩
  rw [pow_succ]; omega

section recs
variable {q e : ℕ} [NeZero q] {B : BF q} {T : ℕ → Fin (q - 1) → C}

theorem difRec_diff (H : SumLaws P Rep) (H' : SumLaws P' Rep) (hs : Scl P P' I mode N) (hB : Sums P e (B.fn (V := C))) (hq : q = 2 ^ e) (e2 : 2 ≤ e) (e4 : e ≤ 4) (l : ℕ) :
    ∀ {n s t c : ℕ} {v : ℕ → C} {S : ℕ → Multiset ℕ}, n = 2 ^ l → 1 ≤ l → t < s → n * s = N → (∀ p < n, P c (S p) (v (t + s * p))) →
      Diff P' (c + (l - 1)) n S (difRec q B inv T mode n s v (t + s * (n / 2))) := by
  induction l using Nat.strong_induction_on with
  | _ l ih =>
    intro n s t c v S hn hl ht hsN hv
    have hr := LinLaws.le16 hq e2 e4
    rw [difRec.eq_def]
    by_cases hc : n ≤ q ∨ q < 2
    · rw [dif_pos hc]
      have hnr : n ≤ 16 := by omega
      exact H'.end_diff hs hn hl ((Nat.pow_le_pow_iff_right (by omega : 1 < 2)).1 (by omega : 2 ^ l ≤ 2 ^ 4)) ht hsN hv
    · rw [dif_neg hc]
      obtain ⟨hel, hd, hN1, -⟩ := LinLaws.split hq hn rfl (s := 1) (by omega)
      have hN1 : n = q * (n / q) := by omega
      have hq0 : 0 < q := Nat.pos_of_ne_zero (NeZero.ne q)
      have hev : n / q % 2 = 0 := by rw [hd]; exact pow_even (by omega)
      have := ih (l - e) (by omega) (s := q * s) (t := t) hd (by omega) (by have := Nat.le_mul_of_pos_left s hq0; omega)
        (by rw [← Nat.mul_assoc, Nat.mul_comm (n / q) q, ← hN1, hsN])
        (dif_stage (q := q) (m := n / q) (G := difG B T s) (fun p => H.sums_dif hB _) ht (by rwa [← hN1]))
      rw [show t + q * s * (n / q / 2) = t + s * (n / 2) by
        obtain ⟨k, hk⟩ : ∃ k, n / q = 2 * k := ⟨n / q / 2, by omega⟩
        rw [hk] at hN1 ⊢
        rw [Nat.mul_div_cancel_left _ (by omega), show n / 2 = q * k by rw [hN1, show q * (2 * k) = 2 * (q * k) by ring]; omega]
        ring] at this
      obtain ⟨a, b, hab, ha, hb⟩ := this
      refine ⟨a, b, hab, H'.mono (c := c + e + (l - e - 1)) (by omega) (H'.eq ha ?_), H'.mono (c := c + e + (l - e - 1)) (by omega) (H'.eq hb ?_)⟩ <;>
      · simp only [part_sum hev]
        rw [sum_split, ← hN1]

theorem ditRec_diff (H' : SumLaws P' Rep) (hs : Scl P P' I mode N) (L : FlatLaws O I Rep) (hB : Sums P' e (B.fn (V := C)))
    (hB' : Diffs P' (e - 1) (B.fn (V := C))) (hT : ∀ k, T 0 k = I) (hq : q = 2 ^ e) (e2 : 2 ≤ e) (e4 : e ≤ 4) {l : ℕ}
    {S : ℕ → Multiset ℕ} (hn : n = 2 ^ l) (hl : 1 ≤ l) (ht : t < s) (hsN : n * s = N) (hv : ∀ p < n, P c (S p) (v (t + s * p))) :
    Diff P' (c + (l - 1)) n S (ditRec q B inv T mode n s v (t + s * (n / 2))) := by
  have hr := LinLaws.le16 hq e2 e4
  rw [ditRec.eq_def]
  by_cases hc : n ≤ q ∨ q < 2
  · rw [dif_pos hc]
    have hnr : n ≤ 16 := by omega
    exact H'.end_diff hs hn hl ((Nat.pow_le_pow_iff_right (by omega : 1 < 2)).1 (by omega : 2 ^ l ≤ 2 ^ 4)) ht hsN hv
  · rw [dif_neg hc]
    obtain ⟨hel, hd, hN1, -⟩ := LinLaws.split hq hn rfl (s := 1) (by omega)
    have hN1 : n = q * (n / q) := by omega
    have hev : q % 2 = 0 := by rw [hq]; exact pow_even (by omega)
    have hm : 0 < n / q := by rw [hd]; positivity
    have h := dit_diff (P := P') (q := q) (m := n / q) (G := ditG B T s) (S := fun j => ∑ p ∈ Finset.range (n / q), S (j + q * p))
      (v := ditRec q B inv T mode (n / q) (q * s) v)
      (H'.diffs_dit L hB' (T := T (s * 0)) (by simpa using hT)) ht hm (h := q / 2) (by omega) (c := c + (l - e)) (fun j => by
        have hj := j.isLt
        refine H'.ditRec_sum hs L hB hT hq e2 e4 (l - e) hd (by omega) ?_ (by rw [← Nat.mul_assoc, Nat.mul_comm (n / q) q, ← hN1, hsN]) (fun p hp => ?_)
        · calc t + s * j.val < s * (j.val + 1) := by rw [Nat.mul_succ]; omega
            _ ≤ s * q := Nat.mul_le_mul_left _ hj
            _ = q * s := Nat.mul_comm _ _
        · rw [show t + s * j.val + q * s * p = t + s * (j.val + q * p) by ring]
          refine hv _ ?_
          rw [hN1]
          calc j.val + q * p < q * (p + 1) := by rw [Nat.mul_succ]; omega
            _ ≤ q * (n / q) := Nat.mul_le_mul_left _ hp)
    rw [show n / q * (q / 2) = n / 2 by
      obtain ⟨k, hk⟩ : ∃ k, q = 2 * k := ⟨q / 2, by omega⟩
      rw [show n / 2 = k * (n / q) by
        conv_lhs => rw [hN1]
        rw [show q * (n / q) = 2 * (k * (n / q)) by rw [← Nat.mul_assoc, ← hk]]
        omega, show q / 2 = k by omega, Nat.mul_comm]] at h
    obtain ⟨a, b, hab, ha, hb⟩ := h
    refine ⟨a, b, hab, H'.mono (c := c + (l - e) + (e - 1)) (by omega) (H'.eq ha ?_), H'.mono (c := c + (l - e) + (e - 1)) (by omega) (H'.eq hb ?_)⟩ <;>
    · simp only [part_sum' hev]
      rw [Finset.sum_range, sum_split', ← hN1]

end recs

variable {S : ℕ → Multiset ℕ}

theorem stock_diff (H : SumLaws P Rep) (H' : SumLaws P' Rep) (L : FlatLaws O I Rep) (hs : Scl P P' I mode N) {th : ℕ} {dit : Bool} {rad : Radix} {l : ℕ} (hN : N = 2 ^ l) (hl : 1 ≤ l)
    (hv : ∀ t < N, P c (S t) (v t)) : Diff P' (c + (l - 1)) N S (stockOut C th dit rad inv mode N v (N / 2)) := by
  have h : ∀ p < N, P c (S p) (v (0 + 1 * p)) := by simpa using hv
  have key : ∀ f : ℕ → C, Diff P' (c + (l - 1)) N S (f (0 + 1 * (N / 2))) → Diff P' (c + (l - 1)) N S (f (N / 2)) := fun f hf => by simpa using hf
  cases dit <;> cases rad <;> refine key _ ?_
  · exact H.difRec_diff H' hs (e := 2) (H.sums4 _) (by norm_num) (by omega) (by omega) l hN hl (by omega) (by omega) h
  · exact H.difRec_diff H' hs (e := 3) (H.sums8 _) (by norm_num) (by omega) (by omega) l hN hl (by omega) (by omega) h
  · exact H.difRec_diff H' hs (e := 4) (H.sums16 _) (by norm_num) (by omega) (by omega) l hN hl (by omega) (by omega) h
  · exact H'.ditRec_diff hs L (e := 2) (H'.sums4 _) (H'.diffs4 _) (L.tw0 _ _ _ _) (by norm_num) (by omega) (by omega) hN hl (by omega) (by omega) h
  · exact H'.ditRec_diff hs L (e := 3) (H'.sums8 _) (H'.diffs8 _) (L.tw0 _ _ _ _) (by norm_num) (by omega) (by omega) hN hl (by omega) (by omega) h
  · exact H'.ditRec_diff hs L (e := 4) (H'.sums16 _) (H'.diffs16 _) (L.tw0 _ _ _ _) (by norm_num) (by omega) (by omega) hN hl (by omega) (by omega) h

/-! ### six-step and eight-step -/

theorem row_diff (H : SumLaws P Rep) (L : FlatLaws O I Rep) {l : ℕ} (hn : n = 2 ^ l) (hl : 1 ≤ l) (hv : ∀ t < n, P c (S t) (v t)) :
    Diff P (c + (l - 1)) n S (difRec 8 (bf8 inv) inv (stockhamTw C .serial 8 n inv) .scale_1 n 1 v (n / 2)) := by
  have := H.difRec_diff H (H.scl_1 L n) (inv := inv) (T := stockhamTw C .serial 8 n inv) (s := 1) (t := 0) (v := v) (S := S) (e := 3) (H.sums8 inv) (by norm_num) (by omega) (by omega) l hn hl
    (by omega) (by omega) (by simpa using hv)
  simpa using this

theorem six_diff (H : SumLaws P Rep) (H' : SumLaws P' Rep) (L : FlatLaws O I Rep) (hs : Scl P P' I mode (n * n)) {l : ℕ} (hn : n = 2 ^ l) (hl : 1 ≤ l)
    (hv : ∀ t < n * n, P c (S t) (v t)) : Diff P' (c + (l + (l - 1))) (n * n) S (sixPure inv mode n v (n * n / 2)) := by
  have h0 : 0 < n := by rw [hn]; positivity
  have hev : n % 2 = 0 := by rw [hn]; exact pow_even hl
  obtain ⟨h, hh⟩ : ∃ h, n = 2 * h := ⟨n / 2, by omega⟩
  have a1 : ∀ r < n, P (c + l) (∑ p ∈ Finset.range n, S (r + n * p)) (sixRowsV inv n (transpV n v) (r * n)) := fun r hr => by
    unfold sixRowsV
    rw [Nat.mul_mod_left, Nat.mul_div_cancel _ h0]
    refine H.row_sum L (S := fun p => S (r + n * p)) hn hl fun p hp => ?_
    show P _ _ (v ((r * n + p) / n + (r * n + p) % n * n))
    have e1 : (r * n + p) / n = r := by rw [Nat.add_comm, Nat.add_mul_div_right _ _ h0, Nat.div_eq_of_lt hp, Nat.zero_add]
    have e2 : (r * n + p) % n = p := by rw [Nat.add_comm, Nat.add_mul_mod_self_right, Nat.mod_eq_of_lt hp]
    rw [e1, e2, Nat.mul_comm p n]
    exact hv _ (by
      calc r + n * p < n * (p + 1) := by rw [Nat.mul_succ]; omega
        _ ≤ n * n := Nat.mul_le_mul_left _ hp)
  have a2 : ∀ r < n, P' (c + l) (∑ p ∈ Finset.range n, S (r + n * p)) (sixMultV inv mode n (sixRowsV inv n (transpV n v)) r) := fun r hr => by
    show P' _ _ (mulpz (scalepz (n * n) mode (cj inv (sixTw C n (r % n) (r / n)))) (sixRowsV inv n (transpV n v) (r / n + r % n * n)))
    rw [Nat.div_eq_of_lt hr, Nat.mod_eq_of_lt hr, L.sixTw_col, L.cjI, Nat.zero_add]
    exact hs.tw (a1 r hr)
  have i1 : n * n / 2 = n * h := by
    conv_lhs => rw [show n * n = 2 * (n * h) by conv_lhs => rw [hh]
                                                rw [hh]; ring]
    omega
  show Diff P' _ _ _ (sixRowsV inv n (sixMultV inv mode n (sixRowsV inv n (transpV n v))) (n * n / 2 / n + n * n / 2 % n * n))
  rw [i1, Nat.mul_div_cancel_left _ h0, Nat.mul_mod_right, Nat.zero_mul, Nat.add_zero]
  unfold sixRowsV
  rw [Nat.div_eq_of_lt (by omega : h < n), Nat.mod_eq_of_lt (by omega : h < n), Nat.zero_mul, show h = n / 2 by omega]
  obtain ⟨a, b, hab, ha, hb⟩ := H'.row_diff L (inv := inv) (v := fun j => sixMultV inv mode n (sixRowsV inv n (transpV n v)) (0 + j))
    (S := fun r => ∑ p ∈ Finset.range n, S (r + n * p)) hn hl fun r hr => by rw [Nat.zero_add]; exact a2 r hr
  refine ⟨a, b, hab, H'.mono (c := c + l + (l - 1)) (by omega) (H'.eq ha ?_), H'.mono (c := c + l + (l - 1)) (by omega) (H'.eq hb ?_)⟩ <;>
  · simp only [part_sum' hev]
    rw [Finset.sum_range, sum_split']

theorem eight_diff (H' : SumLaws P' Rep) (L : FlatLaws O I Rep) (hs : Scl P P' I mode (8 * (n * n))) {l : ℕ} (hn : n = 2 ^ l) (hl : 1 ≤ l)
    (hv : ∀ t < 8 * (n * n), P c (S t) (v t)) :
    Diff P' (c + (l + l + 2)) (8 * (n * n)) S (eightPure inv mode n v (8 * (n * n) / 2)) := by
  have h0 : 0 < n := by rw [hn]; positivity
  have h1 : 0 < n * n := Nat.mul_pos h0 h0
  have hev : n * n % 2 = 0 := by rw [Nat.mul_mod, hn, pow_even hl]
  have hlt : n * n / 2 < n * n := by omega
  show Diff P' _ _ _ (sixPure inv .scale_1 n (fun j => eightPreV inv mode (n * n) v ((8 * (n * n) / 2 / 8 + n * n * (8 * (n * n) / 2 % 8)) / (n * n) * (n * n) + j))
    ((8 * (n * n) / 2 / 8 + n * n * (8 * (n * n) / 2 % 8)) % (n * n)))
  rw [show 8 * (n * n) / 2 / 8 + n * n * (8 * (n * n) / 2 % 8) = n * n / 2 by
    rw [show 8 * (n * n) / 2 / 8 = n * n / 2 by omega, show 8 * (n * n) / 2 % 8 = 0 by omega, Nat.mul_zero, Nat.add_zero],
    Nat.div_eq_of_lt hlt, Nat.mod_eq_of_lt hlt, Nat.zero_mul]
  obtain ⟨a, b, hab, ha, hb⟩ := H'.six_diff H' L (H'.scl_1 L _) (inv := inv) (c := c + 3) (v := fun j => eightPreV inv mode (n * n) v (0 + j))
    (S := fun p => ∑ j : Fin 8, S (p + n * n * j.val)) hn hl fun p hp => by
      rw [Nat.zero_add]
      show P' _ _ (difOut (bf8 inv) (fun j => scalepz (8 * (n * n)) mode (v (p % (n * n) + n * n * j.val))) _ _)
      rw [Nat.mod_eq_of_lt hp, Nat.div_eq_of_lt hp]
      exact H'.sums_dif (H'.sums8 inv) _ _ _ _ (fun j => hs.scl (hv _ (by rw [Nat.mul_comm 8]; exact idx_lt hp j.isLt))) _ (by simp)
  refine ⟨a, b, hab, H'.mono (c := c + 3 + (l + (l - 1))) (by omega) (H'.eq ha ?_), H'.mono (c := c + 3 + (l + (l - 1))) (by omega) (H'.eq hb ?_)⟩ <;>
  · simp only [part_sum hev]
    rw [sum_split]

theorem sixOut_diff (H : SumLaws P Rep) (H' : SumLaws P' Rep) (L : FlatLaws O I Rep) (hs : Scl P P' I mode N) {l : ℕ} (hN : N = 2 ^ l) (hl : 1 ≤ l)
    (hv : ∀ t < N, P c (S t) (v t)) : Diff P' (c + (l - 1)) N S (sixOut inv mode l v (N / 2)) := by
  unfold sixOut
  by_cases h5 : l ≤ 5
  · rw [if_pos h5]
    subst hN
    have := H.difRec_diff H' hs (inv := inv) (T := stockhamTw C .serial 8 (2 ^ l) inv) (s := 1) (t := 0) (v := v) (S := S) (e := 3) (H.sums8 inv) (by norm_num) (by omega) (by omega) l rfl hl
      (by omega) (by omega) (by simpa using hv)
    simpa using this
  · rw [if_neg h5]
    by_cases h2 : l % 2 = 1
    · rw [if_pos h2]
      have e := pow_split_odd h5 h2
      rw [hN, e] at hv hs ⊢
      exact H'.diff_mono (by omega) (H'.eight_diff L hs (l := l / 2 - 1) rfl (by omega) hv)
    · rw [if_neg h2]
      rw [hN, pow_split_even h2] at hv hs ⊢
      exact H'.diff_mono (by omega) (H.six_diff H' L hs (l := l / 2) rfl (by omega) hv)

end stock

/-! ### mixed radix transforms of power of two lengths -/

section mixed
variable {wv : ℕ → C}

theorem mixRec_diff (H : SumLaws P Rep) (l : ℕ) :
    ∀ {n s t c : ℕ} {v : ℕ → C} {S : ℕ → Multiset ℕ}, n = 2 ^ l → 1 ≤ l → t < s → (∀ p < n, P c (S p) (v (t + s * p))) →
      Diff P (c + (l - 1)) n S (mixRec inv N wv n s v (t + s * (n / 2))) := by
  induction l using Nat.strong_induction_on with
  | _ l ih =>
    intro n s t c v S hn hl ht hv
    have h2 : 2 ≤ n := by
      obtain ⟨k, rfl⟩ : ∃ k, l = k + 1 := ⟨l - 1, by omega⟩
      have : 0 < 2 ^ k := by positivity
      rw [hn, pow_succ]; omega
    rw [mixRec.eq_def, dif_neg (by omega)]
    have step : ∀ {q e : ℕ} {u : ℕ → C}, q = 2 ^ e → 1 ≤ e → e < l → (∀ p < n / q, P (c + e) (∑ j : Fin q, S (p + n / q * j.val)) (u (t + q * s * p))) →
        Diff P (c + (l - 1)) n S (mixRec inv N wv (n / q) (q * s) u (t + s * (n / 2))) := fun {q e u} hq he hel hu => by
      have hd : n / q = 2 ^ (l - e) := by rw [hn, hq, Nat.pow_div (by omega) (by omega)]
      have hN : n = q * (n / q) := by rw [hd, hn, hq, ← pow_add]; congr 1; omega
      have hev : n / q % 2 = 0 := by rw [hd]; exact pow_even (by omega)
      have hq0 : 0 < q := by rw [hq]; positivity
      have h := ih (l - e) (by omega) (s := q * s) (t := t) (v := u) hd (by omega)
        (by have := Nat.le_mul_of_pos_left s hq0; omega) hu
      rw [show t + q * s * (n / q / 2) = t + s * (n / 2) by
        obtain ⟨k, hk⟩ : ∃ k, n / q = 2 * k := ⟨n / q / 2, by omega⟩
        rw [hk] at hN ⊢
        rw [Nat.mul_div_cancel_left _ (by omega), show n / 2 = q * k by rw [hN, show q * (2 * k) = 2 * (q * k) by ring]; omega]
        ring] at h
      obtain ⟨a, b, hab, ha, hb⟩ := h
      refine ⟨a, b, hab, H.mono (c := c + e + (l - e - 1)) (by omega) (H.eq ha ?_), H.mono (c := c + e + (l - e - 1)) (by omega) (H.eq hb ?_)⟩ <;>
      · simp only [part_sum hev]
        rw [sum_split, ← hN]
    have stage : ∀ {q b e : ℕ} [NeZero q] {B : BFT q b} {tw : ℕ → Fin b → ℕ}, n % q = 0 → (∀ T, Sums P e (B.fn (V := C) · T)) →
        ∀ p < n / q, P (c + e) (∑ j : Fin q, S (p + n / q * j.val)) (difPure q (n / q) s (coreG B wv tw) v (t + q * s * p)) := fun {q b e} _ {B tw} hd hB => by
      refine core_sum hB ht ?_
      rwa [Nat.mul_div_cancel' (Nat.dvd_of_mod_eq_zero hd)]
    have lt : ∀ e, n % 2 ^ e = 0 → n ≠ 2 ^ e → e < l := fun e hd hne => by
      have h := (Nat.pow_dvd_pow_iff_le_right (by omega : 1 < 2)).1 (hn ▸ Nat.dvd_of_mod_eq_zero hd)
      rcases Nat.lt_or_ge e l with h' | h'
      · exact h'
      · exact absurd (by rw [hn, le_antisymm h h']) hne
    have lt' : ∀ e, n % 2 ^ e ≠ 0 → l < e := fun e hd => by
      by_contra hc
      exact hd (Nat.mod_eq_zero_of_dvd (hn ▸ Nat.pow_dvd_pow 2 (by omega)))
    have leq : ∀ e, n = 2 ^ e → l = e := fun e he => Nat.pow_right_injective (le_refl 2) (hn.symm.trans he)
    by_cases h8 : n % 8 = 0
    · rw [if_pos h8]
      by_cases hn8 : n = 8
      · rw [if_pos hn8]
        obtain rfl := leq 3 (by rw [hn8]; rfl)
        subst hn8
        exact dif_diff (H.diffs8 inv) ht rfl hv
      · rw [if_neg hn8]
        have hel := lt 3 h8 hn8
        by_cases h1 : 2 ≤ s
        · rw [if_pos h1]
          exact step (e := 3) rfl (by omega) hel (stage h8 fun T => H.sums_dif (H.sums8 inv) _)
        · rw [if_neg h1]
          exact step (e := 3) rfl (by omega) hel (stage h8 fun T => H.sums_dif (H.sums8 inv) (fun k => wpow (cj inv (T 0)) (k.val + 1)))
    rw [if_neg h8]
    have l3 := lt' 3 h8
    by_cases h4 : n % 4 = 0
    · rw [if_pos h4]
      by_cases hn4 : n = 4
      · rw [if_pos hn4]
        obtain rfl := leq 2 (by rw [hn4]; rfl)
        subst hn4
        exact dif_diff (H.diffs4 inv) ht rfl hv
      · have := lt 2 h4 hn4
        omega
    rw [if_neg h4]
    obtain rfl : l = 1 := by have := lt' 2 h4; omega
    rw [pow_one] at hn
    subst hn
    rw [if_pos rfl, if_pos rfl]
    exact dif_diff H.diffs2 ht rfl hv

end mixed

/-! ### the transforms -/

section all
variable {thr : Thr} {kind : AlgoKind} {n l c : ℕ} {S : ℕ → Multiset ℕ}

theorem algo_diff (H : SumLaws P Rep) (L : FlatLaws O I Rep) (hn : n = 2 ^ l) (hl : 1 ≤ l)
    (hv : ∀ t < n, P c (S t) (v t)) : Diff P (c + (l - 1)) n S (algoOut C thr kind inv .scale_1 n v (n / 2)) := by
  unfold algoOut
  cases kind with
  | stock dit rad => exact H.stock_diff H L (H.scl_1 L n) hn hl hv
  | six =>
    rw [show logLoop n = l by rw [hn, logLoop_pow]]
    exact H.sixOut_diff H L (H.scl_1 L n) hn hl hv
  | mixed =>
    have := H.mixRec_diff (inv := inv) (N := n) (wv := mixTabVal C n) (s := 1) (t := 0) (v := v) (S := S) (c := c) l hn hl (by omega) (by simpa using hv)
    show Diff P _ n S (mixRec inv n (mixTabVal C n) n 1 v (n / 2))
    simpa using this

theorem fft_diff (H : SumLaws P Rep) (L : FlatLaws O I Rep) (hn : n = 2 ^ l) (hl : 1 ≤ l)
    (hv : ∀ t < n, P c (S t) (v t)) : Diff P (c + (l - 1)) n S (fftOut C thr inv .scale_1 n v (n / 2)) := by
  unfold fftOut
  cases hd : dispatch (logOf n) with
  | none =>
    have := dispatch_none hd
    have h := logOf_some this
    have : l = 0 := Nat.pow_right_injective (le_refl 2) (hn.symm.trans h)
    omega
  | some kind => exact H.algo_diff L hn hl hv

end all

end SumLaws

end OTFFT
