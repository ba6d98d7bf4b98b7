/-
A signal delayed by half its length: bin for bin the same transform, up to the sign of the odd bins, whatever rounding does.
-/
import Verif.Proof.Hom
import Verif.Proof.Fail

namespace OTFFT

set_option linter.unusedSectionVars false

variable {F C : Type} [DArith F] [CArith F C]

/-- `R false` may be read as "equal", `R true` as "opposite" -/
structure HalfLaws (R : Bool → C → C → Prop) : Prop where
  lin : ∀ s, LinLaws (E := F) (A := C) (F := F) (C := C) fun _ => R s
  mulR : ∀ s, LinLaws.MulR (E := F) (A := C) (F := F) (C := C) fun _ => R s
  comm : ∀ {s a b a' b'}, R s a b' → R s b a' → R s (addpz a b) (addpz a' b')
  anti : ∀ {s a b a' b'}, R s a b' → R s b a' → R (!s) (subpz a b) (subpz a' b')

/-- the sign of element `k`: that of the odd ones is flipped -/
def sg (s : Bool) (k : ℕ) : Bool := if k % 2 = 0 then s else !s

theorem sg_congr {s : Bool} {a b : ℕ} (h : a % 2 = b % 2) : sg s a = sg s b := by unfold sg; rw [h]

theorem sg_mod {s : Bool} {a m : ℕ} (hm : m % 2 = 0) : sg s (a % m) = sg s a := by
  refine sg_congr ?_
  obtain ⟨k, rfl⟩ : ∃ k, m = 2 * k := ⟨m / 2, by omega⟩
  exact Nat.mod_mul_right_mod a 2 k

theorem sg_add {s : Bool} {a m b : ℕ} (hm : m % 2 = 0) : sg s (a + m * b) = sg s a := by
  refine sg_congr ?_
  obtain ⟨k, rfl⟩ : ∃ k, m = 2 * k := ⟨m / 2, by omega⟩
  rw [Nat.mul_assoc]; omega

namespace HalfLaws
variable {R : Bool → C → C → Prop} {mode : ScaleMode} {inv : Bool} {v v' : ℕ → C} {s0 : Bool}

section
variable (H : HalfLaws (F := F) R)
include H

theorem add {s a a' b b'} (h : R s a a') (h' : R s b b') : R s (addpz a b) (addpz a' b') := (H.lin s).add (c := a) (d := a) h h'
theorem sub {s a a' b b'} (h : R s a a') (h' : R s b b') : R s (subpz a b) (subpz a' b') := (H.lin s).sub (c := a) (d := a) h h'
theorem jx {s a a'} (h : R s a a') : R s (jxpz a) (jxpz a') := (H.lin s).jx (c := a) h
theorem v8 {s a a'} (h : R s a a') : R s (v8xpz a) (v8xpz a') := (H.lin s).v8 (c := a) h
theorem w8 {s a a'} (h : R s a a') : R s (w8xpz a) (w8xpz a') := (H.lin s).w8 (c := a) h
theorem h1 {s a a'} (h : R s a a') : R s (h1xpz a) (h1xpz a') := (H.lin s).h1 (c := a) h
theorem h3 {s a a'} (h : R s a a') : R s (h3xpz a) (h3xpz a') := (H.lin s).h3 (c := a) h
theorem hf {s a a'} (h : R s a a') : R s (hfxpz a) (hfxpz a') := (H.lin s).hf (c := a) h
theorem hd {s a a'} (h : R s a a') : R s (hdxpz a) (hdxpz a') := (H.lin s).hd (c := a) h
theorem mulL {s a a'} (w : C) (h : R s a a') : R s (mulpz w a) (mulpz w a') := (H.lin s).mulL (c := a) w w h

end

/-! ### butterflies -/

/-- the butterfly, operands exchanged by halves -/
def Half (R : Bool → C → C → Prop) {q : ℕ} (f : (Fin q → C) → Fin q → C) : Prop :=
  ∀ (s : Bool) (x x' : Fin q → C), (∀ j j' : Fin q, j'.val = (j.val + q / 2) % q → R s (x j) (x' j')) →
    ∀ k : Fin q, R (sg s k.val) (f x k) (f x' k)

macro "half_steps" H:term "," h:term : tactic =>
  `(tactic| repeat' first
    | exact HalfLaws.comm $H ($h _ _ rfl) ($h _ _ rfl)
    | exact HalfLaws.anti $H ($h _ _ rfl) ($h _ _ rfl)
    | apply HalfLaws.add $H
    | apply HalfLaws.sub $H
    | apply HalfLaws.jx $H
    | apply HalfLaws.v8 $H
    | apply HalfLaws.w8 $H
    | apply HalfLaws.h1 $H
    | apply HalfLaws.h3 $H
    | apply HalfLaws.hf $H
    | apply HalfLaws.hd $H)

section
variable (H : HalfLaws (F := F) R)
include H

theorem half2 : Half R (bf2.fn (V := C)) := by
  intro s x x' h k
  fin_cases k
  · exact H.comm (h 0 1 rfl) (h 1 0 rfl)
  · exact H.anti (h 0 1 rfl) (h 1 0 rfl)

theorem half4 (inv : Bool) : Half R ((bf4 inv).fn (V := C)) := by
  intro s x x' h k
  cases inv <;> fin_cases k <;> (
    simp only [bf4, bf4fwd, bf4inv, if_true, if_false, Bool.false_eq_true, sg]
    simp only [Fin.zero_eta, Fin.mk_one, Fin.reduceFinMk, Matrix.cons_val, Fin.val_zero, Fin.val_one, Nat.reduceMod, if_true, if_false, Nat.one_ne_zero, OfNat.ofNat_ne_zero]
    half_steps H, h)

theorem half8 (inv : Bool) : Half R ((bf8 inv).fn (V := C)) := by
  intro s x x' h k
  cases inv <;> fin_cases k <;> (
    simp only [bf8, bf8fwd, bf8inv, if_true, if_false, Bool.false_eq_true, sg]
    simp only [Fin.zero_eta, Fin.mk_one, Fin.reduceFinMk, Matrix.cons_val, Fin.val_zero, Fin.val_one, Nat.reduceMod, if_true, if_false, Nat.one_ne_zero, OfNat.ofNat_ne_zero]
    half_steps H, h)

set_option maxHeartbeats 4000000 in
theorem half16 (inv : Bool) : Half R ((bf16 inv).fn (V := C)) := by
  intro s x x' h k
  cases inv <;> fin_cases k <;> (
    simp only [bf16, bf16fwd, bf16inv, if_true, if_false, Bool.false_eq_true, sg]
    simp only [Fin.zero_eta, Fin.mk_one, Fin.reduceFinMk, Matrix.cons_val, Fin.val_zero, Fin.val_one, Nat.reduceMod, if_true, if_false, Nat.one_ne_zero, OfNat.ofNat_ne_zero]
    half_steps H, h)

theorem half_dif {q : ℕ} {B : BF q} (hB : Half R (B.fn (V := C))) (T : Fin (q - 1) → C) : Half R (difOut B · T) := by
  intro s x x' h k
  show R _ (difOut B x T k) (difOut B x' T k)
  unfold difOut
  by_cases h0 : k.val = 0
  · rw [dif_pos h0, dif_pos h0]
    exact hB s x x' h k
  · rw [dif_neg h0, dif_neg h0]
    exact H.mulL _ (hB s x x' h k)

end

/-! ### stages -/

section stage
variable {q m s N : ℕ} [NeZero q]

omit [NeZero q] in
theorem lane {M b h N : ℕ} {j j' : Fin q} (hq : q = 2 * h) (hb : b < M) (hN : N = q * M) (hj : j'.val = (j.val + q / 2) % q) :
    (b + M * j.val + N / 2) % N = b + M * j'.val ∧ b + M * j.val < N := by
  have lt : ∀ i < q, b + M * i < N := fun i hi => by
    calc b + M * i < M * (i + 1) := by rw [Nat.mul_succ]; omega
      _ ≤ M * q := Nat.mul_le_mul_left _ hi
      _ = N := by rw [hN]; ring
  have hN2 : N / 2 = M * h := by rw [hN, hq, show 2 * h * M = 2 * (M * h) by ring]; omega
  have hl := lt _ j.isLt
  have hjl := j.isLt
  refine ⟨?_, hl⟩
  rw [show q / 2 = h by omega] at hj
  rw [hN2]
  by_cases hc : j.val < h
  · rw [Nat.mod_eq_of_lt (by omega)] at hj
    have l' := lt _ (show j.val + h < q by omega)
    rw [hj, show b + M * j.val + M * h = b + M * (j.val + h) by ring, Nat.mod_eq_of_lt l']
  · have hj' : j.val = j'.val + h := by
      rw [show j.val + h = (j.val - h) + q by omega, Nat.add_mod_right, Nat.mod_eq_of_lt (by omega)] at hj
      omega
    have l' := lt _ j'.isLt
    rw [hj', show b + M * (j'.val + h) + M * h = b + M * j'.val + M * (2 * h) by ring, ← hq, Nat.mul_comm M q, ← hN, Nat.add_mod_right,
      Nat.mod_eq_of_lt l']

theorem dif_half {G : ℕ → (Fin q → C) → Fin q → C} (hN : N = q * m * s) (hq : q % 2 = 0) (hG : ∀ p, Half R (G p))
    (hv : ∀ t < N, R s0 (v t) (v' ((t + N / 2) % N))) :
    ∀ t < N, R (sg s0 (t / s)) (difPure q m s G v t) (difPure q m s G v' t) := by
  intro t ht
  have hq0 : 0 < q := Nat.pos_of_ne_zero (NeZero.ne q)
  have hs : 0 < s := Nat.pos_of_ne_zero (by rintro rfl; omega)
  have hm : t / s / q < m := by
    apply Nat.div_lt_of_lt_mul
    apply Nat.div_lt_of_lt_mul
    rw [hN, Nat.mul_comm (q * m) s] at ht
    exact ht
  have h1 : t % s < s := Nat.mod_lt _ hs
  have hb : t % s + s * (t / s / q) < s * m := by
    calc t % s + s * (t / s / q) < s * (t / s / q + 1) := by rw [Nat.mul_succ]; omega
      _ ≤ s * m := Nat.mul_le_mul_left _ hm
  have := hG (t / s / q) s0 (fun j => v (t % s + s * (t / s / q + m * j.val)))
    (fun j => v' (t % s + s * (t / s / q + m * j.val))) (fun j j' hj => by
      obtain ⟨e, l⟩ := lane (q := q) (h := q / 2) (by omega) hb (N := N) (by rw [hN]; ring) hj
      have := hv _ l
      rw [e] at this
      rw [show t % s + s * (t / s / q + m * j.val) = t % s + s * (t / s / q) + s * m * j.val by ring,
        show t % s + s * (t / s / q + m * j'.val) = t % s + s * (t / s / q) + s * m * j'.val by ring]
      exact this) (Fin.ofNat q (t / s))
  rw [Fin.val_ofNat, sg_mod hq] at this
  exact this

theorem dif_par {G : ℕ → (Fin q → C) → Fin q → C} (hN : N = q * m * s) (hs2 : s % 2 = 0)
    (hG : ∀ b p xs xs', (∀ j, R b (xs j) (xs' j)) → ∀ i, R b (G p xs i) (G p xs' i))
    (hv : ∀ t < N, R (sg s0 t) (v t) (v' t)) :
    ∀ t < N, R (sg s0 t) (difPure q m s G v t) (difPure q m s G v' t) := by
  intro t ht
  have hr : 0 < q := Nat.pos_of_ne_zero (NeZero.ne q)
  have hs : 0 < s := Nat.pos_of_ne_zero (by rintro rfl; omega)
  have hm : t / s / q < m := by
    apply Nat.div_lt_of_lt_mul
    apply Nat.div_lt_of_lt_mul
    rw [hN, Nat.mul_comm (q * m) s] at ht
    exact ht
  refine hG _ _ _ _ (fun j => ?_) _
  have h1 : t % s < s := Nat.mod_lt _ hs
  have h2 : t / s / q + m * j.val + 1 ≤ m * q := by
    calc t / s / q + m * j.val + 1 ≤ m * j.val + m := by omega
      _ = m * (j.val + 1) := by ring
      _ ≤ m * q := Nat.mul_le_mul_left _ j.isLt
  have := hv (t % s + s * (t / s / q + m * j.val)) (by
    calc t % s + s * (t / s / q + m * j.val) < s * (t / s / q + m * j.val + 1) := by rw [Nat.mul_add s _ 1]; omega
      _ ≤ s * (m * q) := Nat.mul_le_mul_left _ h2
      _ = N := by rw [hN]; ring)
  rw [sg_add hs2, sg_mod hs2] at this
  exact this

theorem dit_half {G : ℕ → (Fin q → C) → Fin q → C} (hN : N = q * m * s) (hm2 : m % 2 = 0)
    (hG : ∀ b p xs xs', (∀ j, R b (xs j) (xs' j)) → ∀ i, R b (G p xs i) (G p xs' i))
    (hv : ∀ t < N, R (sg s0 (t / (q * s))) (v t) (v' t)) :
    ∀ t < N, R (sg s0 (t / s)) (ditPure q m s G v t) (ditPure q m s G v' t) := by
  intro t ht
  have hs : 0 < s := Nat.pos_of_ne_zero (by rintro rfl; omega)
  have hm0 : 0 < m := Nat.pos_of_ne_zero (by rintro rfl; simp at hN; omega)
  have hq0 : 0 < q := Nat.pos_of_ne_zero (NeZero.ne q)
  have hm : t / s % m < m := Nat.mod_lt _ hm0
  refine hG _ _ _ _ (fun j => ?_) _
  have hj := j.isLt
  have h1 : t % s < s := Nat.mod_lt _ hs
  have h2 : q * (t / s % m) + j.val + 1 ≤ m * q := by
    calc q * (t / s % m) + j.val + 1 ≤ q * (t / s % m) + q := by omega
      _ = q * (t / s % m + 1) := by ring
      _ ≤ q * m := Nat.mul_le_mul_left _ hm
      _ = m * q := Nat.mul_comm _ _
  have := hv (t % s + s * (q * (t / s % m) + j.val)) (by
    calc t % s + s * (q * (t / s % m) + j.val) < s * (q * (t / s % m) + j.val + 1) := by
          rw [Nat.mul_add s _ 1]; omega
      _ ≤ s * (m * q) := Nat.mul_le_mul_left _ h2
      _ = N := by rw [hN]; ring)
  have h3 : t % s + s * j.val < q * s := by
    calc t % s + s * j.val < s * (j.val + 1) := by rw [Nat.mul_succ]; omega
      _ ≤ s * q := Nat.mul_le_mul_left _ hj
      _ = q * s := Nat.mul_comm _ _
  rw [show t % s + s * (q * (t / s % m) + j.val) = t % s + s * j.val + q * s * (t / s % m) by ring,
    Nat.add_mul_div_left _ _ (Nat.mul_pos hq0 hs), Nat.div_eq_of_lt h3, Nat.zero_add, sg_mod hm2] at this
  rw [show t % s + s * (q * (t / s % m) + j.val) = t % s + s * j.val + q * s * (t / s % m) by ring]
  exact this

end stage

/-! ### Stockham transforms -/

section stock
variable (H : HalfLaws (F := F) R)
include H
variable {N : ℕ}

theorem endG_half {q M : ℕ} {B : BF q} (hB : Half R (B.fn (V := C))) (p : ℕ) : Half R (endG (C := C) B M mode p) := fun _ _ _ h k =>
  hB _ _ _ (fun j j' hj => (H.lin _).scale (c := (CArith.cmk (fofNat 0) (fofNat 0) : C)) M mode (h j j' hj)) k

theorem endPure_half {n s : ℕ} (hn : n = 2 ∨ n = 4 ∨ n = 8 ∨ n = 16) (hN : N = n * s)
    (hv : ∀ t < N, R s0 (v t) (v' ((t + N / 2) % N))) :
    ∀ t < N, R (sg s0 (t / s)) (endPure inv mode n s v t) (endPure inv mode n s v' t) := by
  intro t ht
  unfold endPure
  rcases hn with rfl | rfl | rfl | rfl
  · exact dif_half (by rw [hN, Nat.mul_one]) (by norm_num) (fun p => H.endG_half H.half2 p) hv t ht
  · exact dif_half (by rw [hN, Nat.mul_one]) (by norm_num) (fun p => H.endG_half (H.half4 inv) p) hv t ht
  · exact dif_half (by rw [hN, Nat.mul_one]) (by norm_num) (fun p => H.endG_half (H.half8 inv) p) hv t ht
  · exact dif_half (by rw [hN, Nat.mul_one]) (by norm_num) (fun p => H.endG_half (H.half16 inv) p) hv t ht

theorem endG_par {q M : ℕ} {B : BF q} (hB : ∀ b, LinLaws.Bfly (fun _ : C => R b) B) :
    ∀ b p xs xs', (∀ j, R b (xs j) (xs' j)) → ∀ i, R b (endG (C := C) B M mode p xs i) (endG (C := C) B M mode p xs' i) :=
  fun b _ xs _ h i => hB b xs _ _ (fun j => (H.lin b).scale (c := xs j) M mode (h j)) i

theorem endPure_par {n s : ℕ} (hn : n = 2 ∨ n = 4 ∨ n = 8 ∨ n = 16) (hN : N = n * s) (hs : s % 2 = 0)
    (hv : ∀ t < N, R (sg s0 t) (v t) (v' t)) :
    ∀ t < N, R (sg s0 t) (endPure inv mode n s v t) (endPure inv mode n s v' t) := by
  intro t ht
  unfold endPure
  rcases hn with rfl | rfl | rfl | rfl
  · exact dif_par (by rw [hN, Nat.mul_one]) hs (H.endG_par fun b => (H.lin b).bfly2) hv t ht
  · exact dif_par (by rw [hN, Nat.mul_one]) hs (H.endG_par fun b => (H.lin b).bfly4 inv) hv t ht
  · exact dif_par (by rw [hN, Nat.mul_one]) hs (H.endG_par fun b => (H.lin b).bfly8 inv) hv t ht
  · exact dif_par (by rw [hN, Nat.mul_one]) hs (H.endG_par fun b => (H.lin b).bfly16 inv) hv t ht

section recs
variable {q e : ℕ} [NeZero q] {B : BF q} {T : ℕ → Fin (q - 1) → C}

theorem difRec_par (hB : ∀ b, LinLaws.Bfly (fun _ : C => R b) B) (hq : q = 2 ^ e) (e2 : 2 ≤ e) (e4 : e ≤ 4) (l : ℕ) :
    ∀ {n s : ℕ} {v v' : ℕ → C}, n = 2 ^ l → 1 ≤ l → N = n * s → s % 2 = 0 → (∀ t < N, R (sg s0 t) (v t) (v' t)) →
      ∀ t < N, R (sg s0 t) (difRec q B inv T mode n s v t) (difRec q B inv T mode n s v' t) := by
  induction l using Nat.strong_induction_on with
  | _ l ih =>
    intro n s v v' hn hl hN hs hv t ht
    have hr := LinLaws.le16 hq e2 e4
    rw [difRec.eq_def q B inv T mode n s v, difRec.eq_def q B inv T mode n s v']
    by_cases hc : n ≤ q ∨ q < 2
    · rw [dif_pos hc, dif_pos hc]
      have hnr : n ≤ 16 := by omega
      exact H.endPure_par (by rw [hn] at hnr ⊢; exact pow_le_16 hl hnr) hN hs hv t ht
    · rw [dif_neg hc, dif_neg hc]
      obtain ⟨hel, hd, hN1, hN2⟩ := LinLaws.split hq hn hN (by omega)
      refine ih (l - e) (by omega) hd (by omega) hN2 (by rw [Nat.mul_mod, hs, Nat.mul_zero, Nat.zero_mod]) (dif_par hN1 hs (fun b p xs xs' h i => ?_) hv) t ht
      exact (H.lin b).difOut_hom (hB b) (fun _ => xs i) _ xs xs xs' h i

theorem difRec_half (hB : Half R (B.fn (V := C))) (hB' : ∀ b, LinLaws.Bfly (fun _ : C => R b) B) (hq : q = 2 ^ e) (e2 : 2 ≤ e) (e4 : e ≤ 4) {l : ℕ}
    (hN : N = 2 ^ l) (hl : 1 ≤ l) (hv : ∀ t < N, R s0 (v t) (v' ((t + N / 2) % N))) :
    ∀ t < N, R (sg s0 t) (difRec q B inv T mode N 1 v t) (difRec q B inv T mode N 1 v' t) := by
  intro t ht
  have hr := LinLaws.le16 hq e2 e4
  rw [difRec.eq_def q B inv T mode N 1 v, difRec.eq_def q B inv T mode N 1 v']
  by_cases hc : N ≤ q ∨ q < 2
  · rw [dif_pos hc, dif_pos hc]
    have hnr : N ≤ 16 := by omega
    have := H.endPure_half (inv := inv) (mode := mode) (n := N) (s := 1) (by rw [hN] at hnr ⊢; exact pow_le_16 hl hnr) (by omega) hv t ht
    rwa [Nat.div_one] at this
  · rw [dif_neg hc, dif_neg hc]
    obtain ⟨hel, hd, hN1, hN2⟩ := LinLaws.split (N := N) (s := 1) hq hN (by omega) (by omega)
    have q2 : q % 2 = 0 := by
      rw [hq, show e = (e - 1) + 1 by omega, pow_succ]; omega
    refine H.difRec_par (N := N) hB' hq e2 e4 (l - e) hd (by omega) hN2 (by omega) (fun t ht => ?_) t ht
    have := dif_half (s0 := s0) hN1 q2 (G := difG B T 1) (fun p => H.half_dif hB _) hv t ht
    rw [Nat.div_one] at this
    exact this

theorem ditRec_half (hB : Half R (B.fn (V := C))) (hB' : ∀ b, LinLaws.Bfly (fun _ : C => R b) B) (hq : q = 2 ^ e) (e2 : 2 ≤ e) (e4 : e ≤ 4) (l : ℕ) :
    ∀ {n s : ℕ}, n = 2 ^ l → 1 ≤ l → N = n * s → (∀ t < N, R s0 (v t) (v' ((t + N / 2) % N))) →
      ∀ t < N, R (sg s0 (t / s)) (ditRec q B inv T mode n s v t) (ditRec q B inv T mode n s v' t) := by
  induction l using Nat.strong_induction_on with
  | _ l ih =>
    intro n s hn hl hN hv t ht
    have hr := LinLaws.le16 hq e2 e4
    rw [ditRec.eq_def q B inv T mode n s v, ditRec.eq_def q B inv T mode n s v']
    by_cases hc : n ≤ q ∨ q < 2
    · rw [dif_pos hc, dif_pos hc]
      have hnr : n ≤ 16 := by omega
      exact H.endPure_half (by rw [hn] at hnr ⊢; exact pow_le_16 hl hnr) hN hv t ht
    · rw [dif_neg hc, dif_neg hc]
      obtain ⟨hel, hd, hN1, hN2⟩ := LinLaws.split hq hn hN (by omega)
      have m2 : n / q % 2 = 0 := by
        rw [hd, show l - e = (l - e - 1) + 1 by omega, pow_succ]; omega
      exact dit_half hN1 m2 (fun b p xs xs' h i => (H.lin b).ditOut_hom (hB' b) (fun _ => xs i) _ xs xs xs' h i)
        (ih (l - e) (by omega) hd (by omega) hN2 hv) t ht

end recs

theorem stockOut_half {th : ℕ} {dit : Bool} {rad : Radix} {l N : ℕ} (hN : N = 2 ^ l) (hl : 1 ≤ l)
    (hv : ∀ t < N, R s0 (v t) (v' ((t + N / 2) % N))) :
    ∀ t < N, R (sg s0 t) (stockOut C th dit rad inv mode N v t) (stockOut C th dit rad inv mode N v' t) := by
  have one : ∀ {f g : ℕ → C}, (∀ t < N, R (sg s0 (t / 1)) (f t) (g t)) → ∀ t < N, R (sg s0 t) (f t) (g t) := fun h t ht => by
    have := h t ht
    rwa [Nat.div_one] at this
  cases dit <;> cases rad
  · exact H.difRec_half (e := 2) (H.half4 inv) (fun b => (H.lin b).bfly4 inv) (by norm_num) (by omega) (by omega) hN hl hv
  · exact H.difRec_half (e := 3) (H.half8 inv) (fun b => (H.lin b).bfly8 inv) (by norm_num) (by omega) (by omega) hN hl hv
  · exact H.difRec_half (e := 4) (H.half16 inv) (fun b => (H.lin b).bfly16 inv) (by norm_num) (by omega) (by omega) hN hl hv
  · exact one (H.ditRec_half (e := 2) (H.half4 inv) (fun b => (H.lin b).bfly4 inv) (by norm_num) (by omega) (by omega) l hN hl (by omega) hv)
  · exact one (H.ditRec_half (e := 3) (H.half8 inv) (fun b => (H.lin b).bfly8 inv) (by norm_num) (by omega) (by omega) l hN hl (by omega) hv)
  · exact one (H.ditRec_half (e := 4) (H.half16 inv) (fun b => (H.lin b).bfly16 inv) (by norm_num) (by omega) (by omega) l hN hl (by omega) hv)

end stock

/-! ### six-step and eight-step -/

section six
variable (H : HalfLaws (F := F) R)
include H
variable {n : ℕ}
open ApLaws (mod_lt_of rc_lt)

theorem rec8_half {l N : ℕ} (hN : N = 2 ^ l) (hl : 1 ≤ l) (hv : ∀ t < N, R s0 (v t) (v' ((t + N / 2) % N))) :
    ∀ t < N, R (sg s0 t) (difRec 8 (bf8 inv) inv (stockhamTw C .serial 8 N inv) mode N 1 v t) (difRec 8 (bf8 inv) inv (stockhamTw C .serial 8 N inv) mode N 1 v' t) :=
  H.difRec_half (e := 3) (H.half8 inv) (fun b => (H.lin b).bfly8 inv) (by norm_num) (by omega) (by omega) hN hl hv

theorem six_half {l : ℕ} (hn : n = 2 ^ l) (hl : 1 ≤ l) (hv : ∀ t < n * n, R s0 (v t) (v' ((t + n * n / 2) % (n * n)))) :
    ∀ t < n * n, R (sg s0 t) (sixPure inv mode n v t) (sixPure inv mode n v' t) := by
  have n2 : n % 2 = 0 := by rw [hn, show l = (l - 1) + 1 by omega, pow_succ]; omega
  have n0 : 0 < n := by rw [hn]; exact Nat.two_pow_pos l
  -- rows of the transposed array
  have a1 : ∀ t < n * n, R (sg s0 (t % n)) (sixRowsV inv n (transpV n v) t) (sixRowsV inv n (transpV n v') t) := by
    intro t ht
    have hr : t / n < n := Nat.div_lt_of_lt_mul ht
    refine H.rec8_half (inv := inv) (mode := .scale_1) (v := fun j => transpV n v (t / n * n + j)) (v' := fun j => transpV n v' (t / n * n + j))
      hn hl (fun j hj => ?_) (t % n) (mod_lt_of ht)
    have key : ∀ i < n, (t / n * n + i) / n + (t / n * n + i) % n * n = t / n + n * i := fun i hi => by
      rw [Nat.mul_comm (t / n) n, Nat.mul_add_div n0, Nat.div_eq_of_lt hi, Nat.mul_add_mod, Nat.mod_eq_of_lt hi]
      ring
    have hj' : (j + n / 2) % n < n := Nat.mod_lt _ n0
    show R s0 (v _) (v' _)
    rw [key j hj, key _ hj']
    obtain ⟨e, lt⟩ := lane (q := n) (h := n / 2) (M := n) (N := n * n) (b := t / n) (j := ⟨j, hj⟩) (j' := ⟨(j + n / 2) % n, hj'⟩) (by omega) hr rfl rfl
    have := hv _ lt
    rw [e] at this
    exact this
  have a2 : ∀ t < n * n, R (sg s0 (t / n)) (sixMultV inv mode n (sixRowsV inv n (transpV n v)) t) (sixMultV inv mode n (sixRowsV inv n (transpV n v')) t) := by
    intro t ht
    have hr : t / n < n := Nat.div_lt_of_lt_mul ht
    have := a1 (t / n + t % n * n) (rc_lt hr (mod_lt_of ht))
    rw [Nat.add_mul_mod_self_right, Nat.mod_eq_of_lt hr] at this
    exact H.mulL _ this
  have a3 : ∀ t < n * n, R (sg s0 (t / n)) (sixRowsV inv n (sixMultV inv mode n (sixRowsV inv n (transpV n v))) t) (sixRowsV inv n (sixMultV inv mode n (sixRowsV inv n (transpV n v'))) t) := by
    intro t ht
    have hr : t / n < n := Nat.div_lt_of_lt_mul ht
    refine (H.lin _).rec8_hom (inv := inv) (mode := .scale_1)
      (u := fun j => sixMultV inv mode n (sixRowsV inv n (transpV n v)) (t / n * n + j))
      (v := fun j => sixMultV inv mode n (sixRowsV inv n (transpV n v)) (t / n * n + j))
      (v' := fun j => sixMultV inv mode n (sixRowsV inv n (transpV n v')) (t / n * n + j)) hn hl (fun j hj => ?_) (t % n) (mod_lt_of ht)
    have := a2 (t / n * n + j) (by rw [Nat.add_comm]; exact rc_lt hj hr)
    rwa [Nat.mul_comm (t / n) n, Nat.mul_add_div n0, Nat.div_eq_of_lt hj, Nat.add_zero, Nat.mul_comm n] at this
  intro t ht
  have hr : t / n < n := Nat.div_lt_of_lt_mul ht
  have := a3 (t / n + t % n * n) (rc_lt hr (mod_lt_of ht))
  rw [Nat.add_mul_div_right _ _ n0, Nat.div_eq_of_lt hr, Nat.zero_add, sg_mod n2] at this
  exact this

theorem eight_half {l : ℕ} (hn : n = 2 ^ l) (hl : 1 ≤ l) (hv : ∀ t < 8 * (n * n), R s0 (v t) (v' ((t + 8 * (n * n) / 2) % (8 * (n * n))))) :
    ∀ t < 8 * (n * n), R (sg s0 t) (eightPure inv mode n v t) (eightPure inv mode n v' t) := by
  intro t ht
  have h1 : 0 < n * n := by omega
  have a1 : ∀ t < 8 * (n * n), R (sg s0 (t / (n * n))) (eightPreV inv mode (n * n) v t) (eightPreV inv mode (n * n) v' t) := by
    intro t ht
    have hb : t / (n * n) < 8 := Nat.div_lt_of_lt_mul (by omega)
    have := H.half_dif (H.half8 inv) (fun k => wpow (cj inv (wr1Val C (8 * (n * n)) (t % (n * n)))) (k.val + 1)) s0
      (fun j => scalepz (8 * (n * n)) mode (v (t % (n * n) + n * n * j.val)))
      (fun j => scalepz (8 * (n * n)) mode (v' (t % (n * n) + n * n * j.val)))
      (fun j j' hj => by
        obtain ⟨e, lt⟩ := lane (q := 8) (h := 4) (M := n * n) (N := 8 * (n * n)) (b := t % (n * n)) (by omega) (Nat.mod_lt _ h1) rfl hj
        have := hv _ lt
        rw [e] at this
        exact (H.lin _).scale (c := (CArith.cmk (fofNat 0) (fofNat 0) : C)) _ mode this) (Fin.ofNat 8 (t / (n * n)))
    rw [Fin.val_ofNat, Nat.mod_eq_of_lt hb] at this
    exact this
  have a2 : ∀ t < 8 * (n * n), R (sg s0 (t / (n * n))) (eightSubV inv n (eightPreV inv mode (n * n) v) t) (eightSubV inv n (eightPreV inv mode (n * n) v') t) := by
    intro t ht
    have hb : t / (n * n) < 8 := Nat.div_lt_of_lt_mul (by omega)
    refine (H.lin _).six_hom (inv := inv) (mode := .scale_1) (u := fun j => eightPreV inv mode (n * n) v (t / (n * n) * (n * n) + j))
      (v := fun j => eightPreV inv mode (n * n) v (t / (n * n) * (n * n) + j))
      (v' := fun j => eightPreV inv mode (n * n) v' (t / (n * n) * (n * n) + j)) hn hl (fun j hj => ?_) (t % (n * n)) (Nat.mod_lt _ h1)
    have := a1 (t / (n * n) * (n * n) + j) (by rw [Nat.add_comm]; exact rc_lt hj hb)
    rwa [Nat.mul_comm (t / (n * n)), Nat.mul_add_div h1, Nat.div_eq_of_lt hj, Nat.add_zero, Nat.mul_comm (n * n)] at this
  have h8 : t / 8 < n * n := by omega
  have := a2 (t / 8 + n * n * (t % 8)) (by
    rw [Nat.mul_comm (n * n)]
    exact rc_lt h8 (by omega))
  rw [Nat.add_mul_div_left _ _ h1, Nat.div_eq_of_lt h8, Nat.zero_add, sg_mod (by norm_num)] at this
  exact this

theorem sixOut_half {l N : ℕ} (hN : N = 2 ^ l) (hl : 1 ≤ l) (hv : ∀ t < N, R s0 (v t) (v' ((t + N / 2) % N))) :
    ∀ t < N, R (sg s0 t) (sixOut inv mode l v t) (sixOut inv mode l v' t) := by
  intro t ht
  unfold sixOut
  by_cases h5 : l ≤ 5
  · rw [if_pos h5, if_pos h5]
    subst hN
    exact H.rec8_half rfl hl hv t ht
  · rw [if_neg h5, if_neg h5]
    by_cases h2 : l % 2 = 1
    · rw [if_pos h2, if_pos h2]
      have e := pow_split_odd h5 h2
      rw [hN, e] at hv ht
      exact H.eight_half rfl (by omega) hv t ht
    · rw [if_neg h2, if_neg h2]
      have e : 2 ^ l = 2 ^ (l / 2) * 2 ^ (l / 2) := by rw [← pow_add]; congr 1; omega
      rw [hN, e] at hv ht
      exact H.six_half rfl (by omega) hv t ht

end six

/-! ### mixed radix -/

section mix
variable (H : HalfLaws (F := F) R)
include H
variable {N : ℕ}

omit H in
theorem core_par {q b m s N : ℕ} [NeZero q] {S : BFT q b} (hS : ∀ b, LinLaws.BflyT (fun _ : C => R b) S) (hN : N = q * m * s) (hs : s % 2 = 0)
    (wv : ℕ → C) (tw : ℕ → Fin b → ℕ) (hv : ∀ t < N, R (sg s0 t) (v t) (v' t)) :
    ∀ t < N, R (sg s0 t) (difPure q m s (coreG S wv tw) v t) (difPure q m s (coreG S wv tw) v' t) :=
  dif_par hN hs (fun b _ xs xs' h i => hS b xs xs xs' (fun _ => wv 0) _ h i) hv

theorem mixAny_par {wv : ℕ → C} (n : ℕ) :
    ∀ {s : ℕ} {v v' : ℕ → C}, N = n * s → 2 ≤ n → s % 2 = 0 → (∀ t < N, R (sg s0 t) (v t) (v' t)) →
      ∀ t < N, R (sg s0 t) (mixAnyRec inv N wv n s v t) (mixAnyRec inv N wv n s v' t) := by
  induction n using Nat.strong_induction_on with
  | _ n ih =>
    intro s v v' hN h2 hs hv
    have hpr := Nat.minFac_prime (n := n) (by omega)
    have hdv := Nat.minFac_dvd n
    have : NeZero n.minFac := ⟨hpr.ne_zero⟩
    rw [mixAnyRec.eq_def inv N wv n s v, mixAnyRec.eq_def inv N wv n s v', dif_neg (by omega), dif_neg (by omega)]
    by_cases hp : n.minFac = n
    · rw [if_pos hp, if_pos hp]
      exact dif_par (by rw [hp, Nat.mul_one]; exact hN) hs
        (fun b q xs xs' h i => (H.lin b).anyG_hom (@HalfLaws.mulR F C _ _ R H b) (wu := wv) none none rfl q xs xs xs' h i) hv
    · rw [if_neg hp, if_neg hp]
      obtain ⟨hN1, hN2⟩ := LinLaws.split_of (q := n.minFac) hN (Nat.mod_eq_zero_of_dvd hdv)
      obtain ⟨hlt, hge⟩ := LinLaws.div_ge hpr.two_le h2 (Nat.mod_eq_zero_of_dvd hdv) (fun e => hp e.symm)
      exact ih _ hlt hN2 hge (by rw [Nat.mul_mod, hs, Nat.mul_zero, Nat.zero_mod])
        (dif_par hN1 hs (fun b q xs xs' h i => (H.lin b).anyG_hom (@HalfLaws.mulR F C _ _ R H b) (wu := wv) (some _) (some _) rfl q xs xs xs' h i) hv)

theorem mixRec_par {wv : ℕ → C} (n : ℕ) :
    ∀ {s : ℕ} {v v' : ℕ → C}, N = n * s → 2 ≤ n → s % 2 = 0 → (∀ t < N, R (sg s0 t) (v t) (v' t)) →
      ∀ t < N, R (sg s0 t) (mixRec inv N wv n s v t) (mixRec inv N wv n s v' t) := by
  induction n using Nat.strong_induction_on with
  | _ n ih =>
    intro s v v' hN h2 hs hv
    have hqs : ∀ q, q * s % 2 = 0 := fun q => by rw [Nat.mul_mod, hs, Nat.mul_zero, Nat.zero_mod]
    rw [mixRec.eq_def inv N wv n s v, mixRec.eq_def inv N wv n s v', dif_neg (by omega), dif_neg (by omega)]
    by_cases h8 : n % 8 = 0
    · rw [if_pos h8, if_pos h8]
      by_cases hn : n = 8
      · rw [if_pos hn, if_pos hn]
        subst hn
        exact core_par (fun b => LinLaws.bt_end ((H.lin b).bfly8 inv)) (by omega) hs _ _ hv
      · rw [if_neg hn, if_neg hn]
        obtain ⟨n1, n2⟩ := LinLaws.split_of (q := 8) hN h8
        obtain ⟨hlt, hge⟩ := LinLaws.div_ge (by omega) h2 h8 hn
        refine ih _ hlt n2 hge (hqs 8) ?_
        by_cases h1 : 2 ≤ s
        · rw [if_pos h1, if_pos h1]
          exact core_par (fun b => (H.lin b).bt_mix8s) n1 hs _ _ hv
        · rw [if_neg h1, if_neg h1]
          exact core_par (fun b => (H.lin b).bt_mix8one) n1 hs _ _ hv
    rw [if_neg h8, if_neg h8]
    by_cases h4 : n % 4 = 0
    · rw [if_pos h4, if_pos h4]
      by_cases hn : n = 4
      · rw [if_pos hn, if_pos hn]
        subst hn
        exact core_par (fun b => LinLaws.bt_end ((H.lin b).bfly4 inv)) (by omega) hs _ _ hv
      · rw [if_neg hn, if_neg hn]
        obtain ⟨n1, n2⟩ := LinLaws.split_of (q := 4) hN h4
        obtain ⟨hlt, hge⟩ := LinLaws.div_ge (by omega) h2 h4 hn
        refine ih _ hlt n2 hge (hqs 4) ?_
        by_cases h1 : 2 ≤ s
        · rw [if_pos h1, if_pos h1]
          exact core_par (fun b => (H.lin b).bt_mix4s) n1 hs _ _ hv
        · rw [if_neg h1, if_neg h1]
          exact core_par (fun b => (H.lin b).bt_mix4one) n1 hs _ _ hv
    rw [if_neg h4, if_neg h4]
    by_cases h22 : n % 2 = 0
    · rw [if_pos h22, if_pos h22]
      by_cases hn : n = 2
      · rw [if_pos hn, if_pos hn]
        subst hn
        exact core_par (fun b => LinLaws.bt_end (H.lin b).bfly2) (by omega) hs _ _ hv
      · rw [if_neg hn, if_neg hn]
        obtain ⟨n1, n2⟩ := LinLaws.split_of (q := 2) hN h22
        obtain ⟨hlt, hge⟩ := LinLaws.div_ge (by omega) h2 h22 hn
        exact ih _ hlt n2 hge (hqs 2) (core_par (fun b => (H.lin b).bt_mix2) n1 hs _ _ hv)
    rw [if_neg h22, if_neg h22]
    by_cases h5 : n % 5 = 0
    · rw [if_pos h5, if_pos h5]
      by_cases hn : n = 5
      · rw [if_pos hn, if_pos hn]
        subst hn
        exact core_par (fun b => (H.lin b).bt_end5) (by omega) hs _ _ hv
      · rw [if_neg hn, if_neg hn]
        obtain ⟨n1, n2⟩ := LinLaws.split_of (q := 5) hN h5
        obtain ⟨hlt, hge⟩ := LinLaws.div_ge (by omega) h2 h5 hn
        exact ih _ hlt n2 hge (hqs 5) (core_par (fun b => (H.lin b).bt_mix5 (@HalfLaws.mulR F C _ _ R H b)) n1 hs _ _ hv)
    rw [if_neg h5, if_neg h5]
    by_cases h3 : n % 3 = 0
    · rw [if_pos h3, if_pos h3]
      by_cases hn : n = 3
      · rw [if_pos hn, if_pos hn]
        subst hn
        exact core_par (fun b => (H.lin b).bt_end3) (by omega) hs _ _ hv
      · rw [if_neg hn, if_neg hn]
        obtain ⟨n1, n2⟩ := LinLaws.split_of (q := 3) hN h3
        obtain ⟨hlt, hge⟩ := LinLaws.div_ge (by omega) h2 h3 hn
        exact ih _ hlt n2 hge (hqs 3) (core_par (fun b => (H.lin b).bt_mix3 (@HalfLaws.mulR F C _ _ R H b)) n1 hs _ _ hv)
    rw [if_neg h3, if_neg h3]
    exact H.mixAny_par n hN h2 hs hv

/-- the first stage, of an even radix -/
theorem mixRec_half {wv : ℕ → C} (h2 : N % 2 = 0) (h0 : 0 < N) (hv : ∀ t < N, R s0 (v t) (v' ((t + N / 2) % N))) :
    ∀ t < N, R (sg s0 t) (mixRec inv N wv N 1 v t) (mixRec inv N wv N 1 v' t) := by
  have one : ∀ {f g : ℕ → C}, (∀ t < N, R (sg s0 (t / 1)) (f t) (g t)) → ∀ t < N, R (sg s0 t) (f t) (g t) := fun h t ht => by
    have := h t ht
    rwa [Nat.div_one] at this
  have hN : N = N * 1 := by omega
  rw [mixRec.eq_def inv N wv N 1 v, mixRec.eq_def inv N wv N 1 v', dif_neg (by omega), dif_neg (by omega)]
  by_cases h8 : N % 8 = 0
  · rw [if_pos h8, if_pos h8]
    by_cases hn : N = 8
    · rw [if_pos hn, if_pos hn]
      exact one (dif_half (by omega) (by norm_num) (fun p => H.half8 inv) hv)
    · rw [if_neg hn, if_neg hn]
      obtain ⟨n1, n2⟩ := LinLaws.split_of (q := 8) hN h8
      obtain ⟨hlt, hge⟩ := LinLaws.div_ge (by omega) (by omega) h8 hn
      rw [if_neg (by omega), if_neg (by omega)]
      exact H.mixRec_par _ n2 hge (by norm_num) (one (dif_half n1 (by norm_num) (fun p => H.half_dif (H.half8 inv) (fun k => wpow (cj inv (wv p)) (k.val + 1))) hv))
  rw [if_neg h8, if_neg h8]
  by_cases h4 : N % 4 = 0
  · rw [if_pos h4, if_pos h4]
    by_cases hn : N = 4
    · rw [if_pos hn, if_pos hn]
      exact one (dif_half (by omega) (by norm_num) (fun p => H.half4 inv) hv)
    · rw [if_neg hn, if_neg hn]
      obtain ⟨n1, n2⟩ := LinLaws.split_of (q := 4) hN h4
      obtain ⟨hlt, hge⟩ := LinLaws.div_ge (by omega) (by omega) h4 hn
      rw [if_neg (by omega), if_neg (by omega)]
      exact H.mixRec_par _ n2 hge (by norm_num) (one (dif_half n1 (by norm_num) (fun p => H.half_dif (H.half4 inv) (fun k => wpow (cj inv (wv p)) (k.val + 1))) hv))
  rw [if_neg h4, if_neg h4, if_pos h2, if_pos h2]
  by_cases hn : N = 2
  · rw [if_pos hn, if_pos hn]
    exact one (dif_half (by omega) (by norm_num) (fun p => H.half2) hv)
  · rw [if_neg hn, if_neg hn]
    obtain ⟨n1, n2⟩ := LinLaws.split_of (q := 2) hN h2
    obtain ⟨hlt, hge⟩ := LinLaws.div_ge (by omega) (by omega) h2 hn
    exact H.mixRec_par _ n2 hge (by norm_num) (one (dif_half n1 (by norm_num) (fun p => H.half_dif H.half2 (fun _ => wv (mixIdx inv N (1 * p)))) hv))

theorem mixOut_half (h2 : N % 2 = 0) (h0 : 0 < N) (hv : ∀ t < N, R s0 (v t) (v' ((t + N / 2) % N))) :
    ∀ t < N, R (sg s0 t) (mixOut C inv mode N v t) (mixOut C inv mode N v' t) := fun t ht =>
  (H.lin _).mixScale (c := (CArith.cmk (fofNat 0) (fofNat 0) : C)) N mode (H.mixRec_half h2 h0 hv t ht)

/-! ### all algorithms -/

theorem algoOut_half {thr : Thr} {kind : AlgoKind} (hk : kind.Usable N) (h2 : N % 2 = 0) (h0 : 0 < N)
    (hv : ∀ t < N, R s0 (v t) (v' ((t + N / 2) % N))) :
    ∀ t < N, R (sg s0 t) (algoOut C thr kind inv mode N v t) (algoOut C thr kind inv mode N v' t) := by
  intro t ht
  unfold algoOut
  cases kind with
  | stock dit rad =>
    obtain ⟨l, rfl, hl, _⟩ := hk
    exact H.stockOut_half rfl hl hv t ht
  | six =>
    obtain ⟨l, rfl, hl, _⟩ := hk
    simp only [logLoop_pow]
    exact H.sixOut_half rfl hl hv t ht
  | mixed => exact H.mixOut_half h2 h0 hv t ht

theorem fftOut_half {thr : Thr} (h2 : N % 2 = 0) (hv : ∀ t < N, R s0 (v t) (v' ((t + N / 2) % N))) :
    ∀ t < N, R (sg s0 t) (fftOut C thr inv mode N v t) (fftOut C thr inv mode N v' t) := by
  intro t ht
  unfold fftOut
  cases hd : dispatch (logOf N) with
  | none =>
    obtain ⟨k, hk⟩ := dispatch_ne_none (n := N) (by omega)
    rw [hd] at hk; cases hk
  | some kind => exact H.algoOut_half (AlgoKind.usable_of_dispatch hd) h2 (by omega) hv t ht

end mix

/-! ### real transforms -/

section real
variable (H : HalfLaws (F := F) R) {r : Bool → F → F → Prop}
include H

theorem rfftFwd_half (L : ∀ s, HomLaws (E := F) (A := C) (F := F) (C := C) (fun _ => r s) fun _ => R s) {thr : Thr} {m : ℕ} (hm : m % 2 = 0)
    (hv : ∀ t < 2 * m, R s0 (v t) (v' ((t + m) % (2 * m)))) :
    ∀ t < 2 * m, R (sg s0 t) (rfftFwdOut C thr mode m v t) (rfftFwdOut C thr mode m v' t) := by
  intro t ht
  let d : F := fofNat 0
  let o : C := CArith.cmk d d
  have hz : ∀ p < m, R s0 (rfftZin C v p) (rfftZin C v' ((p + m / 2) % m)) := by
    intro p hp
    have h0 := hv (2 * p) (by omega)
    have h1 := hv (2 * p + 1) (by omega)
    obtain ⟨e0, e1⟩ : (2 * p + m) % (2 * m) = 2 * ((p + m / 2) % m) ∧ (2 * p + 1 + m) % (2 * m) = 2 * ((p + m / 2) % m) + 1 := by
      by_cases hc : p + m / 2 < m
      · rw [Nat.mod_eq_of_lt hc, Nat.mod_eq_of_lt (by omega), Nat.mod_eq_of_lt (by omega)]; omega
      · rw [show p + m / 2 = p + m / 2 - m + m by omega, Nat.add_mod_right, Nat.mod_eq_of_lt (a := p + m / 2 - m) (by omega),
          show 2 * p + m = 2 * (p + m / 2 - m) + 2 * m by omega, Nat.add_mod_right, Nat.mod_eq_of_lt (by omega),
          show 2 * p + 1 + m = 2 * (p + m / 2 - m) + 1 + 2 * m by omega, Nat.add_mod_right, Nat.mod_eq_of_lt (by omega)]
        exact ⟨rfl, rfl⟩
    rw [e0] at h0
    rw [e1] at h1
    exact (L s0).pair (p := d) (q := d) ((L s0).re (c := o) h0) ((L s0).re (c := o) h1)
  have hZ := H.fftOut_half (thr := thr) (inv := false) (mode := .scale_1) hm hz
  unfold rfftFwdOut
  generalize fftOut C thr false .scale_1 m (rfftZin C v) = Z at hZ
  generalize fftOut C thr false .scale_1 m (rfftZin C v') = Z' at hZ
  have hmid : ∀ t, 1 ≤ t → t < m → R (sg s0 t) (rfftMid mode m (rfftTab C (2 * m)) Z t) (rfftMid mode m (rfftTab C (2 * m)) Z' t) := by
    intro t h1 ht
    have hp : sg s0 (m - t) = sg s0 t := sg_congr (by omega)
    have a := hZ t ht
    have b := hZ (m - t) (by omega)
    rw [hp] at b
    have G := L (sg s0 t)
    have cn : ∀ {x y : C}, R (sg s0 t) x y → R (sg s0 t) (cnjpz x) (cnjpz y) := fun h => G.cnj (c := o) h
    have sb : ∀ {x y x' y' : C}, R (sg s0 t) x y → R (sg s0 t) x' y' → R (sg s0 t) (subpz x x') (subpz y y') := fun h h' => G.sub (c := o) (d := o) h h'
    have ad : ∀ {x y x' y' : C}, R (sg s0 t) x y → R (sg s0 t) x' y' → R (sg s0 t) (addpz x x') (addpz y y') := fun h h' => G.add (c := o) (d := o) h h'
    have ml : ∀ {x y w : C}, R (sg s0 t) x y → R (sg s0 t) (mulpz w x) (mulpz w y) := fun h => G.mulL (c := o) o _ h
    have rs : ∀ {x y : C}, R (sg s0 t) x y → R (sg s0 t) (rsc mode (2 * m) x) (rsc mode (2 * m) y) := fun h => G.rsc_hom (c := o) _ h
    unfold rfftMid
    split
    · exact rs (sb a (ml (sb a (cn b))))
    · exact rs (cn (ad (cn a) (ml (sb b (cn a)))))
  have z0 := hZ 0 (by omega)
  have s00 : sg s0 0 = s0 := rfl
  rw [s00] at z0
  have ends : ∀ {x y : F}, r s0 x y → R s0 (ofD C (rsc0 F mode (2 * m) x)) (ofD C (rsc0 F mode (2 * m) y)) := fun h =>
    (L s0).ofD_hom (y := d) ((L s0).rsc0_hom (mode := mode) (y := d) (2 * m) h)
  unfold rfftPostOut
  split
  · rename_i h0
    rw [h0, s00]
    exact ends ((L s0).dadd (p := d) (q := d) ((L s0).re (c := o) z0) ((L s0).im (c := o) z0))
  split
  · exact hmid t (by omega) (by omega)
  split
  · rename_i h0
    rw [h0, show sg s0 m = s0 by unfold sg; rw [hm, if_pos rfl]]
    exact ends ((L s0).dsub (p := d) (q := d) ((L s0).re (c := o) z0) ((L s0).im (c := o) z0))
  · rw [show sg s0 t = sg s0 (2 * m - t) from sg_congr (by omega)]
    exact (L _).cnj (c := o) (hmid _ (by omega) (by omega))

end real

end HalfLaws

end OTFFT
