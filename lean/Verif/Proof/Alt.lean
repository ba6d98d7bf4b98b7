/-
A signal with every other element negated, of a length that is a power of two: the transform, shifted by half the length,
whatever rounding does.
-/
import Verif.Proof.Half

namespace OTFFT

set_option linter.unusedSectionVars false

variable {F C : Type} [DArith F] [CArith F C]

/-- `R false` may be read as "equal", `R true` as "opposite" -/
structure AltLaws (R : Bool → C → C → Prop) : Prop where
  lin : ∀ s, LinLaws (E := F) (A := C) (F := F) (C := C) fun _ => R s
  addSub : ∀ {s a b a' b'}, R s a a' → R (!s) b b' → R s (addpz a b) (subpz a' b')
  subAdd : ∀ {s a b a' b'}, R s a a' → R (!s) b b' → R s (subpz a b) (addpz a' b')

namespace AltLaws
variable {R : Bool → C → C → Prop} {mode : ScaleMode} {inv : Bool} {v v' : ℕ → C} {s0 : Bool}

section
variable (H : AltLaws (F := F) R)
include H

theorem add {s a a' b b'} (h : R s a a') (h' : R s b b') : R s (addpz a b) (addpz a' b') := (H.lin s).add (c := a) (d := a) h h'
theorem sub {s a a' b b'} (h : R s a a') (h' : R s b b') : R s (subpz a b) (subpz a' b') := (H.lin s).sub (c := a) (d := a) h h'
theorem jx {s a a'} (h : R s a a') : R s (jxpz a) (jxpz a') := (H.lin s).jx (c := a) h
theorem v8 {s a a'} (h : R s a a') : R s (v8xpz a) (v8xpz a') := (H.lin s).v8 (c := a) h
theorem w8 {s a a'} (h : R s a a') : R s (w8xpz a) (w8xpz a') := (H.lin s).w8 (c := a) h
theorem h1 {s a a'} (h : R s a a') : R s (h1xpz a) (h1xpz a') := (H.lin s).h1 (c := a) h
theorem h3 {s a a'} (h : R s a a') : R s (h3xpz a) (h3xpz a') := (H.lin s).h3 (c := a) h
theorem hf {s a a'} (h : R s a a') : R s (hfxpz a) (hfxpz a') := (H.lin s).hf (c := a) h
theorem hd {s a a'} (h : R s a a') : R s (hdxpz a) (hdxpz a') := (H.lin s).hd (c := a) h
theorem mulL {s a a'} (w : C) (h : R s a a') : R s (mulpz w a) (mulpz w a') := (H.lin s).mulL (c := a) w w h

end

/-! ### butterflies -/

/-- the butterfly, odd operands negated -/
def Alt (R : Bool → C → C → Prop) {q : ℕ} (f : (Fin q → C) → Fin q → C) : Prop :=
  ∀ (s : Bool) (x x' : Fin q → C), (∀ j : Fin q, R (sg s j.val) (x j) (x' j)) →
    ∀ k k' : Fin q, k'.val = (k.val + q / 2) % q → R s (f x k) (f x' k')

theorem parts {q : ℕ} {s : Bool} {x x' : Fin q → C} (h : ∀ j : Fin q, R (sg s j.val) (x j) (x' j)) :
    (∀ j : Fin q, j.val % 2 = 0 → R s (x j) (x' j)) ∧ ∀ j : Fin q, j.val % 2 = 1 → R (!s) (x j) (x' j) := by
  refine ⟨fun j hj => ?_, fun j hj => ?_⟩ <;> have := h j
  · unfold sg at this
    rwa [if_pos hj] at this
  · unfold sg at this
    rwa [if_neg (by omega)] at this

macro "alt_top" H:term : tactic =>
  `(tactic| first | refine AltLaws.addSub $H ?_ ?_ | refine AltLaws.subAdd $H ?_ ?_)
macro "alt_steps" H:term "," he:term "," ho:term : tactic =>
  `(tactic| repeat' first
    | exact $he _ rfl
    | exact $ho _ rfl
    | apply AltLaws.add $H
    | apply AltLaws.sub $H
    | apply AltLaws.jx $H
    | apply AltLaws.v8 $H
    | apply AltLaws.w8 $H
    | apply AltLaws.h1 $H
    | apply AltLaws.h3 $H
    | apply AltLaws.hf $H
    | apply AltLaws.hd $H)

section
variable (H : AltLaws (F := F) R)
include H

theorem alt2 : Alt R (bf2.fn (V := C)) := by
  intro s x x' h k k' hk
  fin_cases k
  · obtain rfl : k' = 1 := Fin.ext hk
    exact H.addSub (h 0) (h 1)
  · obtain rfl : k' = 0 := Fin.ext hk
    exact H.subAdd (h 0) (h 1)

theorem alt4 (inv : Bool) : Alt R ((bf4 inv).fn (V := C)) := by
  intro s x x' h k k' hk
  obtain rfl : k' = ⟨(k.val + 4 / 2) % 4, Nat.mod_lt _ (by norm_num)⟩ := Fin.ext hk
  clear hk
  obtain ⟨he, ho⟩ := parts h
  cases inv <;> fin_cases k <;> (
    simp only [bf4, bf4fwd, bf4inv, if_true, if_false, Bool.false_eq_true]
    simp only [Fin.zero_eta, Fin.mk_one, Fin.reduceFinMk, Matrix.cons_val, Nat.reduceDiv, Nat.reduceAdd, Nat.reduceMod]
    alt_top H <;> alt_steps H, he, ho)

theorem alt8 (inv : Bool) : Alt R ((bf8 inv).fn (V := C)) := by
  intro s x x' h k k' hk
  obtain rfl : k' = ⟨(k.val + 8 / 2) % 8, Nat.mod_lt _ (by norm_num)⟩ := Fin.ext hk
  clear hk
  obtain ⟨he, ho⟩ := parts h
  cases inv <;> fin_cases k <;> (
    simp only [bf8, bf8fwd, bf8inv, if_true, if_false, Bool.false_eq_true]
    simp only [Fin.zero_eta, Fin.mk_one, Fin.reduceFinMk, Matrix.cons_val, Nat.reduceDiv, Nat.reduceAdd, Nat.reduceMod]
    alt_top H <;> alt_steps H, he, ho)

set_option maxHeartbeats 4000000 in
theorem alt16 (inv : Bool) : Alt R ((bf16 inv).fn (V := C)) := by
  intro s x x' h k k' hk
  obtain rfl : k' = ⟨(k.val + 16 / 2) % 16, Nat.mod_lt _ (by norm_num)⟩ := Fin.ext hk
  clear hk
  obtain ⟨he, ho⟩ := parts h
  cases inv <;> fin_cases k <;> (
    simp only [bf16, bf16fwd, bf16inv, if_true, if_false, Bool.false_eq_true]
    simp only [Fin.zero_eta, Fin.mk_one, Fin.reduceFinMk, Matrix.cons_val, Nat.reduceDiv, Nat.reduceAdd, Nat.reduceMod]
    alt_top H <;> alt_steps H, he, ho)

end

/-! ### stages -/

section stage
variable {q m s N : ℕ} [NeZero q]

theorem sg_mul_add {s : Bool} {a m b : ℕ} (hm : m % 2 = 0) : sg s (b + m * a) = sg s b := sg_add hm

theorem dif_bound {t : ℕ} (hN : N = q * m * s) (ht : t < N) (j : Fin q) :
    t % s + s * (t / s / q + m * j.val) < N := by
  have hs : 0 < s := Nat.pos_of_ne_zero (by rintro rfl; omega)
  have hm : t / s / q < m := by
    apply Nat.div_lt_of_lt_mul
    apply Nat.div_lt_of_lt_mul
    rw [hN, Nat.mul_comm (q * m) s] at ht
    exact ht
  have h1 : t % s < s := Nat.mod_lt _ hs
  have h2 : t / s / q + m * j.val + 1 ≤ m * q := by
    calc t / s / q + m * j.val + 1 ≤ m * j.val + m := by omega
      _ = m * (j.val + 1) := by ring
      _ ≤ m * q := Nat.mul_le_mul_left _ j.isLt
  calc t % s + s * (t / s / q + m * j.val) < s * (t / s / q + m * j.val + 1) := by rw [Nat.mul_add s _ 1]; omega
    _ ≤ s * (m * q) := Nat.mul_le_mul_left _ h2
    _ = N := by rw [hN]; ring

theorem dit_bound {t : ℕ} (hN : N = q * m * s) (ht : t < N) (j : Fin q) :
    t % s + s * (q * (t / s % m) + j.val) < N := by
  have hs : 0 < s := Nat.pos_of_ne_zero (by rintro rfl; omega)
  have hm0 : 0 < m := Nat.pos_of_ne_zero (by rintro rfl; simp at hN; omega)
  have hm : t / s % m < m := Nat.mod_lt _ hm0
  have h1 : t % s < s := Nat.mod_lt _ hs
  have h2 : q * (t / s % m) + j.val + 1 ≤ m * q := by
    calc q * (t / s % m) + j.val + 1 ≤ q * (t / s % m) + q := by have := j.isLt; omega
      _ = q * (t / s % m + 1) := by ring
      _ ≤ q * m := Nat.mul_le_mul_left _ hm
      _ = m * q := Nat.mul_comm _ _
  calc t % s + s * (q * (t / s % m) + j.val) < s * (q * (t / s % m) + j.val + 1) := by
        rw [Nat.mul_add s _ 1]; omega
    _ ≤ s * (m * q) := Nat.mul_le_mul_left _ h2
    _ = N := by rw [hN]; ring

/-- a stage before the last one -/
theorem dif_alt {G : ℕ → (Fin q → C) → Fin q → C} (hN : N = q * m * s) (hm2 : m % 2 = 0)
    (hG : ∀ b p xs xs', (∀ j, R b (xs j) (xs' j)) → ∀ i, R b (G p xs i) (G p xs' i))
    (hv : ∀ t < N, R (sg s0 (t / s)) (v t) (v' t)) :
    ∀ t < N, R (sg s0 (t / (q * s))) (difPure q m s G v t) (difPure q m s G v' t) := by
  intro t ht
  have hs : 0 < s := Nat.pos_of_ne_zero (by rintro rfl; omega)
  refine hG _ _ _ _ (fun j => ?_) _
  have := hv _ (dif_bound hN ht j)
  rw [Nat.add_mul_div_left _ _ hs, Nat.div_eq_of_lt (Nat.mod_lt _ hs), Nat.zero_add, sg_add hm2] at this
  rw [Nat.mul_comm q s, ← Nat.div_div_eq_div_mul]
  exact this

/-- the last stage -/
theorem dif_alt_end {G : ℕ → (Fin q → C) → Fin q → C} (hN : N = q * s) (hq : q % 2 = 0) (hG : Alt R (G 0))
    (hv : ∀ t < N, R (sg s0 (t / s)) (v t) (v' t)) :
    ∀ t < N, R s0 (difPure q 1 s G v t) (difPure q 1 s G v' ((t + N / 2) % N)) := by
  intro t ht
  have hs : 0 < s := Nat.pos_of_ne_zero (by rintro rfl; omega)
  have hq0 : 0 < q := Nat.pos_of_ne_zero (NeZero.ne q)
  have h1 : t % s < s := Nat.mod_lt _ hs
  have hk : t / s < q := Nat.div_lt_of_lt_mul (by rw [Nat.mul_comm, ← hN]; exact ht)
  let k : Fin q := ⟨t / s, hk⟩
  let k' : Fin q := ⟨(t / s + q / 2) % q, Nat.mod_lt _ hq0⟩
  have e1 : t % s + s * k.val = t := Nat.mod_add_div t s
  have e2 := (HalfLaws.lane (h := q / 2) (j := k) (j' := k') (by omega) h1 hN rfl).1
  rw [e1] at e2
  have d : ∀ (u : ℕ → C) (i : Fin q), difPure q 1 s G u (t % s + s * i.val) = G 0 (fun j => u (t % s + s * j.val)) i := by
    intro u i
    have := difPure_at (m := 1) G u h1 0 i
    simp only [Nat.mul_zero, Nat.zero_add, Nat.one_mul] at this
    exact this
  rw [e2]
  conv => arg 2; rw [← e1]
  rw [d, d]
  refine hG s0 _ _ (fun j => ?_) k k' rfl
  have := hv (t % s + s * j.val) (by
    calc t % s + s * j.val < s * (j.val + 1) := by rw [Nat.mul_succ]; omega
      _ ≤ s * q := Nat.mul_le_mul_left _ j.isLt
      _ = N := by rw [hN, Nat.mul_comm])
  rw [Nat.add_mul_div_left _ _ hs, Nat.div_eq_of_lt h1, Nat.zero_add] at this
  exact this

/-- stages at an even stride -/
theorem dif_lane {G : ℕ → (Fin q → C) → Fin q → C} (hN : N = q * m * s) (hs2 : s % 2 = 0)
    (hG : ∀ b p xs xs', (∀ j, R b (xs j) (xs' j)) → ∀ i, R b (G p xs i) (G p xs' i))
    (hv : ∀ t < N, R (sg s0 t) (v t) (v' t)) :
    ∀ t < N, R (sg s0 t) (difPure q m s G v t) (difPure q m s G v' t) := HalfLaws.dif_par hN hs2 hG hv

theorem dit_lane {G : ℕ → (Fin q → C) → Fin q → C} (hN : N = q * m * s) (hs2 : s % 2 = 0)
    (hG : ∀ b p xs xs', (∀ j, R b (xs j) (xs' j)) → ∀ i, R b (G p xs i) (G p xs' i))
    (hv : ∀ t < N, R (sg s0 t) (v t) (v' t)) :
    ∀ t < N, R (sg s0 t) (ditPure q m s G v t) (ditPure q m s G v' t) := by
  intro t ht
  refine hG _ _ _ _ (fun j => ?_) _
  have := hv _ (dit_bound hN ht j)
  rw [sg_add hs2, sg_mod hs2] at this
  exact this

/-- the last stage of decimation in time -/
theorem dit_alt_end {G : ℕ → (Fin q → C) → Fin q → C} (hN : N = q * m) (hq : q % 2 = 0) (hG : ∀ p, Alt R (G p))
    (hv : ∀ t < N, R (sg s0 t) (v t) (v' t)) :
    ∀ t < N, R s0 (ditPure q m 1 G v t) (ditPure q m 1 G v' ((t + N / 2) % N)) := by
  intro t ht
  have hm0 : 0 < m := Nat.pos_of_ne_zero (by rintro rfl; simp at hN; omega)
  have hq0 : 0 < q := Nat.pos_of_ne_zero (NeZero.ne q)
  have h1 : t % m < m := Nat.mod_lt _ hm0
  have hk : t / m < q := Nat.div_lt_of_lt_mul (by rw [Nat.mul_comm, ← hN]; exact ht)
  let k : Fin q := ⟨t / m, hk⟩
  let k' : Fin q := ⟨(t / m + q / 2) % q, Nat.mod_lt _ hq0⟩
  have e1 : t % m + m * k.val = t := Nat.mod_add_div t m
  have e2 := (HalfLaws.lane (h := q / 2) (j := k) (j' := k') (by omega) h1 hN rfl).1
  rw [e1] at e2
  have d : ∀ (u : ℕ → C) (i : Fin q), ditPure q m 1 G u (t % m + m * i.val) = G (t % m) (fun j => u (q * (t % m) + j.val)) i := by
    intro u i
    have := ditPure_at (s := 1) G u (q := 0) (by norm_num) h1 i
    simp only [Nat.zero_add, Nat.one_mul] at this
    exact this
  rw [e2]
  conv => arg 2; rw [← e1]
  rw [d, d]
  refine hG (t % m) s0 _ _ (fun j => ?_) k k' rfl
  have := hv (q * (t % m) + j.val) (by
    calc q * (t % m) + j.val < q * (t % m + 1) := by have := j.isLt; rw [Nat.mul_succ]; omega
      _ ≤ q * m := Nat.mul_le_mul_left _ h1
      _ = N := hN.symm)
  rw [show q * (t % m) + j.val = j.val + q * (t % m) by ring, sg_add hq] at this
  rw [Nat.add_comm (q * (t % m))]
  exact this

end stage

/-! ### Stockham transforms -/

section stock
variable (H : AltLaws (F := F) R)
include H
variable {N : ℕ}

theorem endG_alt {q M : ℕ} {B : BF q} (hB : Alt R (B.fn (V := C))) (p : ℕ) : Alt R (endG (C := C) B M mode p) := fun _ _ _ h k k' hk =>
  hB _ _ _ (fun j => (H.lin _).scale (c := (CArith.cmk (fofNat 0) (fofNat 0) : C)) M mode (h j)) k k' hk

theorem endG_keep {q M : ℕ} {B : BF q} (hB : ∀ b, LinLaws.Bfly (fun _ : C => R b) B) :
    ∀ b p xs xs', (∀ j, R b (xs j) (xs' j)) → ∀ i, R b (endG (C := C) B M mode p xs i) (endG (C := C) B M mode p xs' i) :=
  fun b _ xs _ h i => hB b xs _ _ (fun j => (H.lin b).scale (c := xs j) M mode (h j)) i

theorem endPure_alt {n s : ℕ} (hn : n = 2 ∨ n = 4 ∨ n = 8 ∨ n = 16) (hN : N = n * s)
    (hv : ∀ t < N, R (sg s0 (t / s)) (v t) (v' t)) :
    ∀ t < N, R s0 (endPure inv mode n s v t) (endPure inv mode n s v' ((t + N / 2) % N)) := by
  intro t ht
  unfold endPure
  rcases hn with rfl | rfl | rfl | rfl
  · exact dif_alt_end hN (by norm_num) (H.endG_alt H.alt2 0) hv t ht
  · exact dif_alt_end hN (by norm_num) (H.endG_alt (H.alt4 inv) 0) hv t ht
  · exact dif_alt_end hN (by norm_num) (H.endG_alt (H.alt8 inv) 0) hv t ht
  · exact dif_alt_end hN (by norm_num) (H.endG_alt (H.alt16 inv) 0) hv t ht

theorem endPure_lane {n s : ℕ} (hn : n = 2 ∨ n = 4 ∨ n = 8 ∨ n = 16) (hN : N = n * s) (hs : s % 2 = 0)
    (hv : ∀ t < N, R (sg s0 t) (v t) (v' t)) :
    ∀ t < N, R (sg s0 t) (endPure inv mode n s v t) (endPure inv mode n s v' t) := by
  intro t ht
  unfold endPure
  rcases hn with rfl | rfl | rfl | rfl
  · exact dif_lane (by rw [hN, Nat.mul_one]) hs (H.endG_keep fun b => (H.lin b).bfly2) hv t ht
  · exact dif_lane (by rw [hN, Nat.mul_one]) hs (H.endG_keep fun b => (H.lin b).bfly4 inv) hv t ht
  · exact dif_lane (by rw [hN, Nat.mul_one]) hs (H.endG_keep fun b => (H.lin b).bfly8 inv) hv t ht
  · exact dif_lane (by rw [hN, Nat.mul_one]) hs (H.endG_keep fun b => (H.lin b).bfly16 inv) hv t ht

theorem alt_dit {q : ℕ} {B : BF q} (hq : q % 2 = 0) (hB : Alt R (B.fn (V := C))) (T : Fin (q - 1) → C) : Alt R (ditOut B · T) := by
  intro s x x' h k k' hk
  show R _ (ditOut B x T k) (ditOut B x' T k')
  unfold ditOut
  refine hB s _ _ (fun j => ?_) k k' hk
  by_cases h0 : j.val = 0
  · simp only [h0, dite_true]
    have := h j
    rw [h0] at this
    exact this
  · simp only [h0, dite_false]
    exact H.mulL _ (h j)

section recs
variable {q e : ℕ} [NeZero q] {B : BF q} {T : ℕ → Fin (q - 1) → C}

theorem difRec_alt (hB : ∀ b, LinLaws.Bfly (fun _ : C => R b) B) (hq : q = 2 ^ e) (e2 : 2 ≤ e) (e4 : e ≤ 4) (l : ℕ) :
    ∀ {n s : ℕ} {v v' : ℕ → C}, n = 2 ^ l → 1 ≤ l → N = n * s → (∀ t < N, R (sg s0 (t / s)) (v t) (v' t)) →
      ∀ t < N, R s0 (difRec q B inv T mode n s v t) (difRec q B inv T mode n s v' ((t + N / 2) % N)) := by
  induction l using Nat.strong_induction_on with
  | _ l ih =>
    intro n s v v' hn hl hN hv t ht
    have hr := LinLaws.le16 hq e2 e4
    rw [difRec.eq_def q B inv T mode n s v, difRec.eq_def q B inv T mode n s v']
    by_cases hc : n ≤ q ∨ q < 2
    · rw [dif_pos hc, dif_pos hc]
      have hnr : n ≤ 16 := by omega
      exact H.endPure_alt (by rw [hn] at hnr ⊢; exact pow_le_16 hl hnr) hN hv t ht
    · rw [dif_neg hc, dif_neg hc]
      obtain ⟨hel, hd, hN1, hN2⟩ := LinLaws.split hq hn hN (by omega)
      have m2 : n / q % 2 = 0 := by
        rw [hd, show l - e = (l - e - 1) + 1 by omega, pow_succ]; omega
      refine ih (l - e) (by omega) hd (by omega) hN2 (dif_alt hN1 m2 (fun b p xs xs' h i => ?_) hv) t ht
      exact (H.lin b).difOut_hom (hB b) (fun _ => xs i) _ xs xs xs' h i

theorem ditRec_lane (hB : ∀ b, LinLaws.Bfly (fun _ : C => R b) B) (hq : q = 2 ^ e) (e2 : 2 ≤ e) (e4 : e ≤ 4) (l : ℕ) :
    ∀ {n s : ℕ}, n = 2 ^ l → 1 ≤ l → N = n * s → s % 2 = 0 → (∀ t < N, R (sg s0 t) (v t) (v' t)) →
      ∀ t < N, R (sg s0 t) (ditRec q B inv T mode n s v t) (ditRec q B inv T mode n s v' t) := by
  induction l using Nat.strong_induction_on with
  | _ l ih =>
    intro n s hn hl hN hs hv t ht
    have hr := LinLaws.le16 hq e2 e4
    rw [ditRec.eq_def q B inv T mode n s v, ditRec.eq_def q B inv T mode n s v']
    by_cases hc : n ≤ q ∨ q < 2
    · rw [dif_pos hc, dif_pos hc]
      have hnr : n ≤ 16 := by omega
      exact H.endPure_lane (by rw [hn] at hnr ⊢; exact pow_le_16 hl hnr) hN hs hv t ht
    · rw [dif_neg hc, dif_neg hc]
      obtain ⟨hel, hd, hN1, hN2⟩ := LinLaws.split hq hn hN (by omega)
      exact dit_lane hN1 hs (fun b p xs xs' h i => (H.lin b).ditOut_hom (hB b) (fun _ => xs i) _ xs xs xs' h i)
        (ih (l - e) (by omega) hd (by omega) hN2 (by rw [Nat.mul_mod, hs, Nat.mul_zero, Nat.zero_mod]) hv) t ht

theorem ditRec_alt (hB : Alt R (B.fn (V := C))) (hB' : ∀ b, LinLaws.Bfly (fun _ : C => R b) B) (hq : q = 2 ^ e) (e2 : 2 ≤ e) (e4 : e ≤ 4) {l : ℕ}
    (hN : N = 2 ^ l) (hl : 1 ≤ l) (hv : ∀ t < N, R (sg s0 t) (v t) (v' t)) :
    ∀ t < N, R s0 (ditRec q B inv T mode N 1 v t) (ditRec q B inv T mode N 1 v' ((t + N / 2) % N)) := by
  intro t ht
  have hr := LinLaws.le16 hq e2 e4
  rw [ditRec.eq_def q B inv T mode N 1 v, ditRec.eq_def q B inv T mode N 1 v']
  by_cases hc : N ≤ q ∨ q < 2
  · rw [dif_pos hc, dif_pos hc]
    have hnr : N ≤ 16 := by omega
    exact H.endPure_alt (n := N) (s := 1) (by rw [hN] at hnr ⊢; exact pow_le_16 hl hnr) (by omega) (fun t ht => by rw [Nat.div_one]; exact hv t ht) t ht
  · rw [dif_neg hc, dif_neg hc]
    obtain ⟨hel, hd, hN1, hN2⟩ := LinLaws.split (N := N) (s := 1) hq hN (by omega) (by omega)
    have q2 : q % 2 = 0 := by
      rw [hq, show e = (e - 1) + 1 by omega, pow_succ]; omega
    exact dit_alt_end (by omega) q2 (G := ditG B T 1) (fun p => H.alt_dit q2 hB _)
      (H.ditRec_lane hB' hq e2 e4 (l - e) hd (by omega) hN2 (by omega) hv) t ht

end recs

theorem stockOut_alt {th : ℕ} {dit : Bool} {rad : Radix} {l N : ℕ} (hN : N = 2 ^ l) (hl : 1 ≤ l)
    (hv : ∀ t < N, R (sg s0 t) (v t) (v' t)) :
    ∀ t < N, R s0 (stockOut C th dit rad inv mode N v t) (stockOut C th dit rad inv mode N v' ((t + N / 2) % N)) := by
  have hv1 : ∀ t < N, R (sg s0 (t / 1)) (v t) (v' t) := fun t ht => by rw [Nat.div_one]; exact hv t ht
  cases dit <;> cases rad
  · exact H.difRec_alt (e := 2) (fun b => (H.lin b).bfly4 inv) (by norm_num) (by omega) (by omega) l hN hl (by omega) hv1
  · exact H.difRec_alt (e := 3) (fun b => (H.lin b).bfly8 inv) (by norm_num) (by omega) (by omega) l hN hl (by omega) hv1
  · exact H.difRec_alt (e := 4) (fun b => (H.lin b).bfly16 inv) (by norm_num) (by omega) (by omega) l hN hl (by omega) hv1
  · exact H.ditRec_alt (e := 2) (H.alt4 inv) (fun b => (H.lin b).bfly4 inv) (by norm_num) (by omega) (by omega) hN hl hv
  · exact H.ditRec_alt (e := 3) (H.alt8 inv) (fun b => (H.lin b).bfly8 inv) (by norm_num) (by omega) (by omega) hN hl hv
  · exact H.ditRec_alt (e := 4) (H.alt16 inv) (fun b => (H.lin b).bfly16 inv) (by norm_num) (by omega) (by omega) hN hl hv

end stock

/-! ### six-step and eight-step -/

section six
variable (H : AltLaws (F := F) R)
include H
variable {n : ℕ}
open ApLaws (mod_lt_of rc_lt)

theorem rec8_alt {l N : ℕ} (hN : N = 2 ^ l) (hl : 1 ≤ l) (hv : ∀ t < N, R (sg s0 t) (v t) (v' t)) :
    ∀ t < N, R s0 (difRec 8 (bf8 inv) inv (stockhamTw C .serial 8 N inv) mode N 1 v t) (difRec 8 (bf8 inv) inv (stockhamTw C .serial 8 N inv) mode N 1 v' ((t + N / 2) % N)) :=
  H.difRec_alt (e := 3) (fun b => (H.lin b).bfly8 inv) (by norm_num) (by omega) (by omega) l hN hl (by omega)
    (fun t ht => by rw [Nat.div_one]; exact hv t ht)

theorem six_alt {l : ℕ} (hn : n = 2 ^ l) (hl : 1 ≤ l) (hv : ∀ t < n * n, R (sg s0 t) (v t) (v' t)) :
    ∀ t < n * n, R s0 (sixPure inv mode n v t) (sixPure inv mode n v' ((t + n * n / 2) % (n * n))) := by
  have n2 : n % 2 = 0 := by rw [hn, show l = (l - 1) + 1 by omega, pow_succ]; omega
  have n0 : 0 < n := by rw [hn]; exact Nat.two_pow_pos l
  have a1 : ∀ t < n * n, R (sg s0 (t / n)) (sixRowsV inv n (transpV n v) t) (sixRowsV inv n (transpV n v') t) := by
    intro t ht
    have hr : t / n < n := Nat.div_lt_of_lt_mul ht
    refine (H.lin _).rec8_hom (inv := inv) (mode := .scale_1) (u := fun j => transpV n v (t / n * n + j))
      (v := fun j => transpV n v (t / n * n + j)) (v' := fun j => transpV n v' (t / n * n + j))
      hn hl (fun j hj => ?_) (t % n) (mod_lt_of ht)
    have key : (t / n * n + j) / n + (t / n * n + j) % n * n = t / n + n * j := by
      rw [Nat.mul_comm (t / n) n, Nat.mul_add_div n0, Nat.div_eq_of_lt hj, Nat.mul_add_mod, Nat.mod_eq_of_lt hj]
      ring
    show R _ (v _) (v' _)
    rw [key]
    have := hv (t / n + n * j) (by rw [Nat.mul_comm n]; exact rc_lt hr hj)
    rwa [sg_add n2] at this
  have a2 : ∀ t < n * n, R (sg s0 t) (sixMultV inv mode n (sixRowsV inv n (transpV n v)) t) (sixMultV inv mode n (sixRowsV inv n (transpV n v')) t) := by
    intro t ht
    have hr : t / n < n := Nat.div_lt_of_lt_mul ht
    have := a1 (t / n + t % n * n) (rc_lt hr (mod_lt_of ht))
    rw [Nat.add_mul_div_right _ _ n0, Nat.div_eq_of_lt hr, Nat.zero_add, sg_mod n2] at this
    exact H.mulL _ this
  have a3 : ∀ r < n, ∀ j < n, R s0 (sixRowsV inv n (sixMultV inv mode n (sixRowsV inv n (transpV n v))) (r * n + j))
      (sixRowsV inv n (sixMultV inv mode n (sixRowsV inv n (transpV n v'))) (r * n + (j + n / 2) % n)) := by
    intro r hr j hj
    have hj' : (j + n / 2) % n < n := Nat.mod_lt _ n0
    have e1 : ∀ {i}, i < n → (r * n + i) / n = r := fun {i} hi => by rw [Nat.mul_comm r n, Nat.mul_add_div n0, Nat.div_eq_of_lt hi, Nat.add_zero]
    have e2 : ∀ {i}, i < n → (r * n + i) % n = i := fun {i} hi => by rw [Nat.mul_comm r n, Nat.mul_add_mod, Nat.mod_eq_of_lt hi]
    have := H.rec8_alt (inv := inv) (mode := .scale_1) (s0 := s0)
      (v := fun j => sixMultV inv mode n (sixRowsV inv n (transpV n v)) (r * n + j))
      (v' := fun j => sixMultV inv mode n (sixRowsV inv n (transpV n v')) (r * n + j)) hn hl (fun i hi => by
        have := a2 (r * n + i) (by rw [Nat.add_comm]; exact rc_lt hi hr)
        rw [Nat.add_comm, Nat.mul_comm r n, sg_add n2] at this
        rw [Nat.add_comm, Nat.mul_comm r n]
        exact this) j hj
    unfold sixRowsV
    rw [e1 hj, e2 hj, e1 hj', e2 hj']
    exact this
  intro t ht
  have hr : t / n < n := Nat.div_lt_of_lt_mul ht
  have hr' : (t / n + n / 2) % n < n := Nat.mod_lt _ n0
  have hc : t % n < n := mod_lt_of ht
  have e := (HalfLaws.lane (q := n) (h := n / 2) (M := n) (N := n * n) (b := t % n) (j := ⟨t / n, hr⟩) (j' := ⟨(t / n + n / 2) % n, hr'⟩) (by omega) hc rfl rfl).1
  have e1 : t % n + n * (t / n) = t := Nat.mod_add_div t n
  simp only [] at e
  rw [e1] at e
  rw [e]
  have := a3 (t % n) hc (t / n) hr
  show R s0 (sixRowsV inv n _ (t / n + t % n * n)) (sixRowsV inv n _ ((t % n + n * ((t / n + n / 2) % n)) / n + (t % n + n * ((t / n + n / 2) % n)) % n * n))
  rw [Nat.add_mul_div_left _ _ n0, Nat.div_eq_of_lt hc, Nat.zero_add, Nat.add_mul_mod_self_left, Nat.mod_eq_of_lt hc,
    Nat.add_comm (t / n), Nat.add_comm ((t / n + n / 2) % n)]
  exact this

theorem eight_alt {l : ℕ} (hn : n = 2 ^ l) (hl : 1 ≤ l) (hv : ∀ t < 8 * (n * n), R (sg s0 t) (v t) (v' t)) :
    ∀ t < 8 * (n * n), R s0 (eightPure inv mode n v t) (eightPure inv mode n v' ((t + 8 * (n * n) / 2) % (8 * (n * n)))) := by
  have n2 : n % 2 = 0 := by rw [hn, show l = (l - 1) + 1 by omega, pow_succ]; omega
  have n0 : 0 < n := by rw [hn]; exact Nat.two_pow_pos l
  have h1 : 0 < n * n := Nat.mul_pos n0 n0
  have N2 : n * n % 2 = 0 := by rw [Nat.mul_mod, n2]
  have a1 : ∀ t < 8 * (n * n), R (sg s0 t) (eightPreV inv mode (n * n) v t) (eightPreV inv mode (n * n) v' t) := by
    intro t ht
    have hb : t / (n * n) < 8 := Nat.div_lt_of_lt_mul (by omega)
    have hq : t % (n * n) < n * n := Nat.mod_lt _ h1
    refine (H.lin _).difOut_hom ((H.lin _).bfly8 inv) (fun _ => v 0) _ (fun j => v 0)
      (fun j => scalepz (8 * (n * n)) mode (v (t % (n * n) + n * n * j.val)))
      (fun j => scalepz (8 * (n * n)) mode (v' (t % (n * n) + n * n * j.val)))
      (fun j => (H.lin _).scale (c := v 0) (8 * (n * n)) mode ?_) (Fin.ofNat 8 (t / (n * n)))
    have := hv (t % (n * n) + n * n * j.val) (by
      have hj := j.isLt
      calc t % (n * n) + n * n * j.val < n * n * (j.val + 1) := by rw [Nat.mul_add]; omega
        _ ≤ n * n * 8 := Nat.mul_le_mul_left _ hj
        _ = 8 * (n * n) := Nat.mul_comm _ _)
    rwa [sg_add N2, sg_mod N2] at this
  have a2 : ∀ b < 8, ∀ j < n * n, R s0 (eightSubV inv n (eightPreV inv mode (n * n) v) (j + n * n * b))
      (eightSubV inv n (eightPreV inv mode (n * n) v') ((j + n * n / 2) % (n * n) + n * n * b)) := by
    intro b hb j hj
    have hj' : (j + n * n / 2) % (n * n) < n * n := Nat.mod_lt _ h1
    have e1 : ∀ {i}, i < n * n → (i + n * n * b) / (n * n) = b := fun {i} hi => by
      rw [Nat.add_mul_div_left _ _ h1, Nat.div_eq_of_lt hi, Nat.zero_add]
    have e2 : ∀ {i}, i < n * n → (i + n * n * b) % (n * n) = i := fun {i} hi => by
      rw [Nat.add_mul_mod_self_left, Nat.mod_eq_of_lt hi]
    have := H.six_alt (inv := inv) (mode := .scale_1) (s0 := s0) (v := fun j => eightPreV inv mode (n * n) v (b * (n * n) + j))
      (v' := fun j => eightPreV inv mode (n * n) v' (b * (n * n) + j)) hn hl (fun i hi => by
        have := a1 (b * (n * n) + i) (by rw [Nat.add_comm]; exact rc_lt hi hb)
        rw [Nat.add_comm, Nat.mul_comm b, sg_add N2] at this
        rw [Nat.add_comm, Nat.mul_comm b]
        exact this) j hj
    unfold eightSubV
    rw [e1 hj, e2 hj, e1 hj', e2 hj']
    exact this
  intro t ht
  have h8 : t / 8 < n * n := by omega
  have := a2 (t % 8) (Nat.mod_lt _ (by norm_num)) (t / 8) h8
  show R s0 (eightSubV inv n _ (t / 8 + n * n * (t % 8))) (eightSubV inv n _ ((t + 8 * (n * n) / 2) % (8 * (n * n)) / 8 + n * n * ((t + 8 * (n * n) / 2) % (8 * (n * n)) % 8)))
  generalize n * n = M at *
  have e : (t + 8 * M / 2) % (8 * M) = 8 * ((t / 8 + M / 2) % M) + t % 8 := by
    by_cases hc : t / 8 + M / 2 < M
    · rw [Nat.mod_eq_of_lt hc, Nat.mod_eq_of_lt (by omega)]; omega
    · rw [show t / 8 + M / 2 = t / 8 + M / 2 - M + M by omega, Nat.add_mod_right, Nat.mod_eq_of_lt (a := t / 8 + M / 2 - M) (by omega),
        show t + 8 * M / 2 = 8 * (t / 8 + M / 2 - M) + t % 8 + 8 * M by omega, Nat.add_mod_right, Nat.mod_eq_of_lt (by omega)]
  rw [e, Nat.mul_add_div (by norm_num), Nat.mul_add_mod, Nat.mod_mod, Nat.div_eq_of_lt (Nat.mod_lt t (by norm_num : 0 < 8)), Nat.add_zero]
  exact this

theorem sixOut_alt {l N : ℕ} (hN : N = 2 ^ l) (hl : 1 ≤ l) (hv : ∀ t < N, R (sg s0 t) (v t) (v' t)) :
    ∀ t < N, R s0 (sixOut inv mode l v t) (sixOut inv mode l v' ((t + N / 2) % N)) := by
  intro t ht
  unfold sixOut
  by_cases h5 : l ≤ 5
  · rw [if_pos h5, if_pos h5]
    subst hN
    exact H.rec8_alt rfl hl hv t ht
  · rw [if_neg h5, if_neg h5]
    by_cases h2 : l % 2 = 1
    · rw [if_pos h2, if_pos h2]
      have e := pow_split_odd h5 h2
      rw [hN, e] at hv ht ⊢
      exact H.eight_alt rfl (by omega) hv t ht
    · rw [if_neg h2, if_neg h2]
      have e : 2 ^ l = 2 ^ (l / 2) * 2 ^ (l / 2) := by rw [← pow_add]; congr 1; omega
      rw [hN, e] at hv ht ⊢
      exact H.six_alt rfl (by omega) hv t ht

end six

/-! ### mixed radix, powers of two -/

section mix
variable (H : AltLaws (F := F) R)
include H
variable {N : ℕ}

theorem mixRec_alt {wv : ℕ → C} (l : ℕ) :
    ∀ {n s : ℕ} {v v' : ℕ → C}, n = 2 ^ l → 1 ≤ l → N = n * s → (∀ t < N, R (sg s0 (t / s)) (v t) (v' t)) →
      ∀ t < N, R s0 (mixRec inv N wv n s v t) (mixRec inv N wv n s v' ((t + N / 2) % N)) := by
  induction l using Nat.strong_induction_on with
  | _ l ih =>
    intro n s v v' hn hl hN hv
    have h2 : 2 ≤ n := by
      rw [hn]
      calc 2 = 2 ^ 1 := by norm_num
        _ ≤ 2 ^ l := Nat.pow_le_pow_right (by norm_num) hl
    have step : ∀ {e : ℕ}, n % 2 ^ e = 0 → n ≠ 2 ^ e → 1 ≤ e → e < l ∧ n / 2 ^ e = 2 ^ (l - e) ∧ n / 2 ^ e % 2 = 0 := by
      intro e h0 hne he
      have hel : e < l := by
        rw [hn] at h0 hne
        have hle := (Nat.pow_dvd_pow_iff_le_right (by norm_num)).1 (Nat.dvd_of_mod_eq_zero h0)
        rcases Nat.lt_or_eq_of_le hle with h | h
        · exact h
        · exact absurd (by rw [h]) hne
      have hd : n / 2 ^ e = 2 ^ (l - e) := by rw [hn, Nat.pow_div (by omega) (by norm_num)]
      exact ⟨hel, hd, by rw [hd, show l - e = (l - e - 1) + 1 by omega, pow_succ]; omega⟩
    rw [mixRec.eq_def inv N wv n s v, mixRec.eq_def inv N wv n s v', dif_neg (by omega), dif_neg (by omega)]
    by_cases h8 : n % 8 = 0
    · rw [if_pos h8, if_pos h8]
      by_cases hn8 : n = 8
      · rw [if_pos hn8, if_pos hn8]
        exact dif_alt_end (by rw [hN, hn8]) (by norm_num) (H.alt8 inv) hv
      · rw [if_neg hn8, if_neg hn8]
        obtain ⟨n1, n2⟩ := LinLaws.split_of (q := 8) hN h8
        obtain ⟨el, hd, hm⟩ := step (e := 3) h8 hn8 (by norm_num)
        refine ih _ (by omega) hd (by omega) n2 ?_
        by_cases h1 : 2 ≤ s
        · rw [if_pos h1, if_pos h1]
          exact dif_alt n1 hm (fun b p xs xs' h i => (H.lin b).bt_mix8s xs xs xs' (fun _ => wv 0) _ h i) hv
        · rw [if_neg h1, if_neg h1]
          exact dif_alt n1 hm (fun b p xs xs' h i => (H.lin b).bt_mix8one xs xs xs' (fun _ => wv 0) _ h i) hv
    rw [if_neg h8, if_neg h8]
    by_cases h4 : n % 4 = 0
    · rw [if_pos h4, if_pos h4]
      by_cases hn4 : n = 4
      · rw [if_pos hn4, if_pos hn4]
        exact dif_alt_end (by rw [hN, hn4]) (by norm_num) (H.alt4 inv) hv
      · rw [if_neg hn4, if_neg hn4]
        obtain ⟨n1, n2⟩ := LinLaws.split_of (q := 4) hN h4
        obtain ⟨el, hd, hm⟩ := step (e := 2) h4 hn4 (by norm_num)
        refine ih _ (by omega) hd (by omega) n2 ?_
        by_cases h1 : 2 ≤ s
        · rw [if_pos h1, if_pos h1]
          exact dif_alt n1 hm (fun b p xs xs' h i => (H.lin b).bt_mix4s xs xs xs' (fun _ => wv 0) _ h i) hv
        · rw [if_neg h1, if_neg h1]
          exact dif_alt n1 hm (fun b p xs xs' h i => (H.lin b).bt_mix4one xs xs xs' (fun _ => wv 0) _ h i) hv
    rw [if_neg h4, if_neg h4]
    have h22 : n % 2 = 0 := by rw [hn, show l = (l - 1) + 1 by omega, pow_succ]; omega
    rw [if_pos h22, if_pos h22]
    by_cases hn2 : n = 2
    · rw [if_pos hn2, if_pos hn2]
      exact dif_alt_end (by rw [hN, hn2]) (by norm_num) H.alt2 hv
    · rw [if_neg hn2, if_neg hn2]
      obtain ⟨n1, n2⟩ := LinLaws.split_of (q := 2) hN h22
      obtain ⟨el, hd, hm⟩ := step (e := 1) h22 hn2 (by norm_num)
      exact ih _ (by omega) hd (by omega) n2 (dif_alt n1 hm (fun b p xs xs' h i => (H.lin b).bt_mix2 xs xs xs' (fun _ => wv 0) _ h i) hv)

theorem mixOut_alt {l : ℕ} (hN : N = 2 ^ l) (hl : 1 ≤ l) (hv : ∀ t < N, R (sg s0 t) (v t) (v' t)) :
    ∀ t < N, R s0 (mixOut C inv mode N v t) (mixOut C inv mode N v' ((t + N / 2) % N)) := fun t ht =>
  (H.lin _).mixScale (c := (CArith.cmk (fofNat 0) (fofNat 0) : C)) N mode
    (H.mixRec_alt l hN hl (by omega) (fun t ht => by rw [Nat.div_one]; exact hv t ht) t ht)

/-! ### all algorithms -/

theorem algoOut_alt {thr : Thr} {kind : AlgoKind} {l : ℕ} (hN : N = 2 ^ l) (hl : 1 ≤ l)
    (hv : ∀ t < N, R (sg s0 t) (v t) (v' t)) :
    ∀ t < N, R s0 (algoOut C thr kind inv mode N v t) (algoOut C thr kind inv mode N v' ((t + N / 2) % N)) := by
  intro t ht
  unfold algoOut
  cases kind with
  | stock dit rad => exact H.stockOut_alt hN hl hv t ht
  | six =>
    subst hN
    simp only [logLoop_pow]
    exact H.sixOut_alt rfl hl hv t ht
  | mixed => exact H.mixOut_alt hN hl hv t ht

theorem fftOut_alt {thr : Thr} {l : ℕ} (hN : N = 2 ^ l) (hl : 1 ≤ l) (hv : ∀ t < N, R (sg s0 t) (v t) (v' t)) :
    ∀ t < N, R s0 (fftOut C thr inv mode N v t) (fftOut C thr inv mode N v' ((t + N / 2) % N)) := by
  intro t ht
  have h1 : N ≠ 1 := by
    rw [hN]
    exact (Nat.one_lt_two_pow (by omega)).ne'
  unfold fftOut
  obtain ⟨k, hk⟩ := dispatch_ne_none h1
  rw [hk]
  exact H.algoOut_alt hN hl hv t ht

end mix

/-! ### inverse real transforms -/

section real
variable (H : AltLaws (F := F) R) {r : Bool → F → F → Prop}
include H

theorem rfftInv_alt (L : ∀ s, HomLaws (E := F) (A := C) (F := F) (C := C) (fun _ => r s) fun _ => R s) {thr : Thr} {m l : ℕ} (hm : m = 2 ^ l) (hl : 1 ≤ l)
    (hv : ∀ t ≤ m, R (sg s0 t) (v t) (v' t)) :
    ∀ t < 2 * m, R s0 (rfftInvOut C thr mode m v t) (rfftInvOut C thr mode m v' ((t + m) % (2 * m))) := by
  have m2 : m % 2 = 0 := by rw [hm, show l = (l - 1) + 1 by omega, pow_succ]; omega
  let d : F := fofNat 0
  let o : C := CArith.cmk d d
  have hpre : ∀ p < m, R (sg s0 p) (rfftPreOut mode m (rfftTab C (2 * m)) v p) (rfftPreOut mode m (rfftTab C (2 * m)) v' p) := by
    intro p hp
    have h0 := hv p (by omega)
    have h1 := hv (m - p) (by omega)
    rw [show sg s0 (m - p) = sg s0 p from sg_congr (by omega)] at h1
    have G := L (sg s0 p)
    have cn : ∀ {x y : C}, R (sg s0 p) x y → R (sg s0 p) (cnjpz x) (cnjpz y) := fun h => G.cnj (c := o) h
    have sb : ∀ {x y x' y' : C}, R (sg s0 p) x y → R (sg s0 p) x' y' → R (sg s0 p) (subpz x x') (subpz y y') := fun h h' => G.sub (c := o) (d := o) h h'
    have ml : ∀ {x y w : C}, R (sg s0 p) x y → R (sg s0 p) (mulpz w x) (mulpz w y) := fun h => G.mulL (c := o) o _ h
    exact G.rscInv_hom (c := o) _ (cn (sb (cn h0) (ml (sb (cn h0) h1))))
  have h := H.fftOut_alt (thr := thr) (inv := true) (mode := rfftInvMode mode) hm hl hpre
  intro t ht
  have e : (t + m) % (2 * m) / 2 = (t / 2 + m / 2) % m ∧ (t + m) % (2 * m) % 2 = t % 2 := by
    by_cases hc : t + m < 2 * m
    · rw [Nat.mod_eq_of_lt hc, Nat.mod_eq_of_lt (by omega)]; omega
    · rw [show t + m = t - m + 2 * m by omega, Nat.add_mod_right, Nat.mod_eq_of_lt (by omega),
        show t / 2 + m / 2 = t / 2 - m / 2 + m by omega, Nat.add_mod_right, Nat.mod_eq_of_lt (by omega)]
      omega
  have ht2 := h (t / 2) (by omega)
  unfold rfftInvOut unpackD
  rw [e.1, e.2]
  split
  · exact (L s0).ofD_hom (y := d) ((L s0).re (c := o) ht2)
  · exact (L s0).ofD_hom (y := d) ((L s0).im (c := o) ht2)

end real

end AltLaws

end OTFFT
