/-
A signal delayed by a quarter of its length: bin for bin the same transform, times powers of the imaginary unit, whatever rounding does.
-/
import Verif.Proof.Hom
import Verif.Proof.Fail

namespace OTFFT

set_option linter.unusedSectionVars false

variable {F C : Type} [DArith F] [CArith F C]

/-- `R k a b` may be read as "`b` is `a` times the `k`-th power of the imaginary unit", `k < 4` -/
structure QuarterLaws (R : ℕ → C → C → Prop) : Prop where
  lin : ∀ k, LinLaws (E := F) (A := C) (F := F) (C := C) fun _ => R k
  q0 : ∀ {a b c d a' b' c' d'}, R 0 a b' → R 0 b c' → R 0 c d' → R 0 d a' →
    R 0 (addpz (addpz a c) (addpz b d)) (addpz (addpz a' c') (addpz b' d'))
  q1 : ∀ {a b c d a' b' c' d'}, R 0 a b' → R 0 b c' → R 0 c d' → R 0 d a' →
    R 3 (subpz (subpz a c) (jxpz (subpz b d))) (subpz (subpz a' c') (jxpz (subpz b' d')))
  q2 : ∀ {a b c d a' b' c' d'}, R 0 a b' → R 0 b c' → R 0 c d' → R 0 d a' →
    R 2 (subpz (addpz a c) (addpz b d)) (subpz (addpz a' c') (addpz b' d'))
  q3 : ∀ {a b c d a' b' c' d'}, R 0 a b' → R 0 b c' → R 0 c d' → R 0 d a' →
    R 1 (addpz (subpz a c) (jxpz (subpz b d))) (addpz (subpz a' c') (jxpz (subpz b' d')))

/-- the factor of element `k`: `(-i)^k`, `i^k` for the inverse transform -/
def qg (inv : Bool) (k : ℕ) : ℕ := (if inv then k else 3 * k) % 4

theorem qg_congr {inv : Bool} {a b : ℕ} (h : a % 4 = b % 4) : qg inv a = qg inv b := by
  unfold qg
  cases inv
  · rw [if_neg Bool.false_ne_true, if_neg Bool.false_ne_true]; omega
  · rw [if_pos rfl, if_pos rfl]; exact h

theorem qg_mod {inv : Bool} {a m : ℕ} (hm : m % 4 = 0) : qg inv (a % m) = qg inv a := by
  refine qg_congr ?_
  obtain ⟨k, rfl⟩ : ∃ k, m = 4 * k := ⟨m / 4, by omega⟩
  exact Nat.mod_mul_right_mod a 4 k

theorem qg_add {inv : Bool} {a m b : ℕ} (hm : m % 4 = 0) : qg inv (a + m * b) = qg inv a := by
  refine qg_congr ?_
  obtain ⟨k, rfl⟩ : ∃ k, m = 4 * k := ⟨m / 4, by omega⟩
  rw [Nat.mul_assoc]; omega

namespace QuarterLaws
variable {R : ℕ → C → C → Prop} {mode : ScaleMode} {inv : Bool} {v v' : ℕ → C}

section
variable (H : QuarterLaws (F := F) R)
include H

theorem add {s a a' b b'} (h : R s a a') (h' : R s b b') : R s (addpz a b) (addpz a' b') := (H.lin s).add (c := a) (d := a) h h'
theorem sub {s a a' b b'} (h : R s a a') (h' : R s b b') : R s (subpz a b) (subpz a' b') := (H.lin s).sub (c := a) (d := a) h h'
theorem jx {s a a'} (h : R s a a') : R s (jxpz a) (jxpz a') := (H.lin s).jx (c := a) h
theorem v8 {s a a'} (h : R s a a') : R s (v8xpz a) (v8xpz a') := (H.lin s).v8 (c := a) h
theorem w8 {s a a'} (h : R s a a') : R s (w8xpz a) (w8xpz a') := (H.lin s).w8 (c := a) h
theorem h1 {s a a'} (h : R s a a') : R s (h1xpz a) (h1xpz a') := (H.lin s).h1 (c := a) h
theorem h3 {s a a'} (h : R s a a') : R s (h3xpz a) (h3xpz a') := (H.lin s).h3 (c := a) h
theorem hf {s a a'} (h : R s a a') : R s (hfxpz a) (hfxpz a') := (H.lin s).hf (c := a) h
theorem hd {s a a'} (h : R s a a') : R s (hdxpz a) (hdxpz a') := (H.lin s).hd (c := a) h
theorem mulL {s a a'} (w : C) (h : R s a a') : R s (mulpz w a) (mulpz w a') := (H.lin s).mulL (c := a) w w h

end

/-! ### butterflies -/

/-- the butterfly, operands moved by a quarter -/
def Quart (R : ℕ → C → C → Prop) (inv : Bool) {q : ℕ} (f : (Fin q → C) → Fin q → C) : Prop :=
  ∀ (x x' : Fin q → C), (∀ j j' : Fin q, j'.val = (j.val + q / 4) % q → R 0 (x j) (x' j')) →
    ∀ k : Fin q, R (qg inv k.val) (f x k) (f x' k)

macro "quarter_steps" H:term "," h:term : tactic =>
  `(tactic| repeat' first
    | exact QuarterLaws.q0 $H ($h _ _ rfl) ($h _ _ rfl) ($h _ _ rfl) ($h _ _ rfl)
    | exact QuarterLaws.q1 $H ($h _ _ rfl) ($h _ _ rfl) ($h _ _ rfl) ($h _ _ rfl)
    | exact QuarterLaws.q2 $H ($h _ _ rfl) ($h _ _ rfl) ($h _ _ rfl) ($h _ _ rfl)
    | exact QuarterLaws.q3 $H ($h _ _ rfl) ($h _ _ rfl) ($h _ _ rfl) ($h _ _ rfl)
    | apply QuarterLaws.add $H
    | apply QuarterLaws.sub $H
    | apply QuarterLaws.jx $H
    | apply QuarterLaws.v8 $H
    | apply QuarterLaws.w8 $H
    | apply QuarterLaws.h1 $H
    | apply QuarterLaws.h3 $H
    | apply QuarterLaws.hf $H
    | apply QuarterLaws.hd $H)

section
variable (H : QuarterLaws (F := F) R)
include H

theorem quarter4 (inv : Bool) : Quart R inv ((bf4 inv).fn (V := C)) := by
  intro x x' h k
  cases inv <;> fin_cases k <;> (
    simp only [bf4, bf4fwd, bf4inv, if_true, if_false, Bool.false_eq_true, qg]
    simp only [Fin.zero_eta, Fin.mk_one, Fin.reduceFinMk, Matrix.cons_val, Fin.val_zero, Fin.val_one, Nat.reduceMod, Nat.reduceMul, Nat.mul_zero, Nat.mul_one]
    quarter_steps H, h)

theorem quarter8 (inv : Bool) : Quart R inv ((bf8 inv).fn (V := C)) := by
  intro x x' h k
  cases inv <;> fin_cases k <;> (
    simp only [bf8, bf8fwd, bf8inv, if_true, if_false, Bool.false_eq_true, qg]
    simp only [Fin.zero_eta, Fin.mk_one, Fin.reduceFinMk, Matrix.cons_val, Fin.val_zero, Fin.val_one, Nat.reduceMod, Nat.reduceMul, Nat.mul_zero, Nat.mul_one]
    quarter_steps H, h)

set_option maxHeartbeats 4000000 in
theorem quarter16 (inv : Bool) : Quart R inv ((bf16 inv).fn (V := C)) := by
  intro x x' h k
  cases inv <;> fin_cases k <;> (
    simp only [bf16, bf16fwd, bf16inv, if_true, if_false, Bool.false_eq_true, qg]
    simp only [Fin.zero_eta, Fin.mk_one, Fin.reduceFinMk, Matrix.cons_val, Fin.val_zero, Fin.val_one, Nat.reduceMod, Nat.reduceMul, Nat.mul_zero, Nat.mul_one]
    quarter_steps H, h)

theorem quarter_dif {q : ℕ} {B : BF q} (hB : Quart R inv (B.fn (V := C))) (T : Fin (q - 1) → C) : Quart R inv (difOut B · T) := by
  intro x x' h k
  show R _ (difOut B x T k) (difOut B x' T k)
  unfold difOut
  by_cases h0 : k.val = 0
  · rw [dif_pos h0, dif_pos h0]
    exact hB x x' h k
  · rw [dif_neg h0, dif_neg h0]
    exact H.mulL _ (hB x x' h k)

end

/-! ### stages -/

section stage
variable {q m s N : ℕ} [NeZero q]

omit [NeZero q] in
theorem lane {M b h N : ℕ} {j j' : Fin q} (hq : q = 4 * h) (hb : b < M) (hN : N = q * M) (hj : j'.val = (j.val + q / 4) % q) :
    (b + M * j.val + N / 4) % N = b + M * j'.val ∧ b + M * j.val < N := by
  have lt : ∀ i < q, b + M * i < N := fun i hi => by
    calc b + M * i < M * (i + 1) := by rw [Nat.mul_succ]; omega
      _ ≤ M * q := Nat.mul_le_mul_left _ hi
      _ = N := by rw [hN]; ring
  have hN2 : N / 4 = M * h := by rw [hN, hq, show 4 * h * M = 4 * (M * h) by ring]; omega
  have hl := lt _ j.isLt
  have hjl := j.isLt
  refine ⟨?_, hl⟩
  rw [show q / 4 = h by omega] at hj
  rw [hN2]
  by_cases hc : j.val + h < q
  · rw [Nat.mod_eq_of_lt hc] at hj
    have l' := lt _ hc
    rw [hj, show b + M * j.val + M * h = b + M * (j.val + h) by ring, Nat.mod_eq_of_lt l']
  · have hj' : j.val + h = j'.val + q := by
      rw [show j.val + h = (j.val + h - q) + q by omega, Nat.add_mod_right, Nat.mod_eq_of_lt (by omega)] at hj
      omega
    have l' := lt _ j'.isLt
    rw [show b + M * j.val + M * h = b + M * (j.val + h) by ring, hj', show b + M * (j'.val + q) = b + M * j'.val + q * M by ring, ← hN,
      Nat.add_mod_right, Nat.mod_eq_of_lt l']

theorem dif_quarter {G : ℕ → (Fin q → C) → Fin q → C} (hN : N = q * m * s) (hq : q % 4 = 0) (hG : ∀ p, Quart R inv (G p))
    (hv : ∀ t < N, R 0 (v t) (v' ((t + N / 4) % N))) :
    ∀ t < N, R (qg inv (t / s)) (difPure q m s G v t) (difPure q m s G v' t) := by
  intro t ht
  have hq0 : 0 < q := Nat.pos_of_ne_zero (NeZero.ne q)
  have hs : 0 < s := Nat.pos_of_ne_zero (by rintro rfl; omega)
  have hm : t / s / q < m := by
    apply Nat.div_lt_of_lt_mul
    apply Nat.div_lt_of_lt_mul
    rw [hN, Nat.mul_comm (q * m) s] at ht
    exact ht
  have h1 : t % s < s := Nat.mod_lt _ hs
  have hb : t % s + s * (t / s / q) < s * m := by
    calc t % s + s * (t / s / q) < s * (t / s / q + 1) := by rw [Nat.mul_succ]; omega
      _ ≤ s * m := Nat.mul_le_mul_left _ hm
  have := hG (t / s / q) (fun j => v (t % s + s * (t / s / q + m * j.val)))
    (fun j => v' (t % s + s * (t / s / q + m * j.val))) (fun j j' hj => by
      obtain ⟨e, l⟩ := lane (q := q) (h := q / 4) (by omega) hb (N := N) (by rw [hN]; ring) hj
      have := hv _ l
      rw [e] at this
      rw [show t % s + s * (t / s / q + m * j.val) = t % s + s * (t / s / q) + s * m * j.val by ring,
        show t % s + s * (t / s / q + m * j'.val) = t % s + s * (t / s / q) + s * m * j'.val by ring]
      exact this) (Fin.ofNat q (t / s))
  rw [Fin.val_ofNat, qg_mod hq] at this
  exact this

theorem dif_par {G : ℕ → (Fin q → C) → Fin q → C} (hN : N = q * m * s) (hs2 : s % 4 = 0)
    (hG : ∀ b p xs xs', (∀ j, R b (xs j) (xs' j)) → ∀ i, R b (G p xs i) (G p xs' i))
    (hv : ∀ t < N, R (qg inv t) (v t) (v' t)) :
    ∀ t < N, R (qg inv t) (difPure q m s G v t) (difPure q m s G v' t) := by
  intro t ht
  have hr : 0 < q := Nat.pos_of_ne_zero (NeZero.ne q)
  have hs : 0 < s := Nat.pos_of_ne_zero (by rintro rfl; omega)
  have hm : t / s / q < m := by
    apply Nat.div_lt_of_lt_mul
    apply Nat.div_lt_of_lt_mul
    rw [hN, Nat.mul_comm (q * m) s] at ht
    exact ht
  refine hG _ _ _ _ (fun j => ?_) _
  have h1 : t % s < s := Nat.mod_lt _ hs
  have h2 : t / s / q + m * j.val + 1 ≤ m * q := by
    calc t / s / q + m * j.val + 1 ≤ m * j.val + m := by omega
      _ = m * (j.val + 1) := by ring
      _ ≤ m * q := Nat.mul_le_mul_left _ j.isLt
  have := hv (t % s + s * (t / s / q + m * j.val)) (by
    calc t % s + s * (t / s / q + m * j.val) < s * (t / s / q + m * j.val + 1) := by rw [Nat.mul_add s _ 1]; omega
      _ ≤ s * (m * q) := Nat.mul_le_mul_left _ h2
      _ = N := by rw [hN]; ring)
  rw [qg_add hs2, qg_mod hs2] at this
  exact this

theorem dit_quarter {G : ℕ → (Fin q → C) → Fin q → C} (hN : N = q * m * s) (hm2 : m % 4 = 0)
    (hG : ∀ b p xs xs', (∀ j, R b (xs j) (xs' j)) → ∀ i, R b (G p xs i) (G p xs' i))
    (hv : ∀ t < N, R (qg inv (t / (q * s))) (v t) (v' t)) :
    ∀ t < N, R (qg inv (t / s)) (ditPure q m s G v t) (ditPure q m s G v' t) := by
  intro t ht
  have hs : 0 < s := Nat.pos_of_ne_zero (by rintro rfl; omega)
  have hm0 : 0 < m := Nat.pos_of_ne_zero (by rintro rfl; simp at hN; omega)
  have hq0 : 0 < q := Nat.pos_of_ne_zero (NeZero.ne q)
  have hm : t / s % m < m := Nat.mod_lt _ hm0
  refine hG _ _ _ _ (fun j => ?_) _
  have hj := j.isLt
  have h1 : t % s < s := Nat.mod_lt _ hs
  have h2 : q * (t / s % m) + j.val + 1 ≤ m * q := by
    calc q * (t / s % m) + j.val + 1 ≤ q * (t / s % m) + q := by omega
      _ = q * (t / s % m + 1) := by ring
      _ ≤ q * m := Nat.mul_le_mul_left _ hm
      _ = m * q := Nat.mul_comm _ _
  have := hv (t % s + s * (q * (t / s % m) + j.val)) (by
    calc t % s + s * (q * (t / s % m) + j.val) < s * (q * (t / s % m) + j.val + 1) := by
          rw [Nat.mul_add s _ 1]; omega
      _ ≤ s * (m * q) := Nat.mul_le_mul_left _ h2
      _ = N := by rw [hN]; ring)
  have h3 : t % s + s * j.val < q * s := by
    calc t % s + s * j.val < s * (j.val + 1) := by rw [Nat.mul_succ]; omega
      _ ≤ s * q := Nat.mul_le_mul_left _ hj
      _ = q * s := Nat.mul_comm _ _
  rw [show t % s + s * (q * (t / s % m) + j.val) = t % s + s * j.val + q * s * (t / s % m) by ring,
    Nat.add_mul_div_left _ _ (Nat.mul_pos hq0 hs), Nat.div_eq_of_lt h3, Nat.zero_add, qg_mod hm2] at this
  rw [show t % s + s * (q * (t / s % m) + j.val) = t % s + s * j.val + q * s * (t / s % m) by ring]
  exact this

end stage

/-! ### Stockham transforms -/

section stock
variable (H : QuarterLaws (F := F) R)
include H
variable {N : ℕ}

theorem endG_quarter {q M : ℕ} {B : BF q} (hB : Quart R inv (B.fn (V := C))) (p : ℕ) : Quart R inv (endG (C := C) B M mode p) := fun _ _ h k =>
  hB _ _ (fun j j' hj => (H.lin _).scale (c := (CArith.cmk (fofNat 0) (fofNat 0) : C)) M mode (h j j' hj)) k

omit H in
theorem pow4_le_16 {k : ℕ} (hk : 2 ≤ k) (h : 2 ^ k ≤ 16) : 2 ^ k = 4 ∨ 2 ^ k = 8 ∨ 2 ^ k = 16 := by
  rcases pow_le_16 (by omega) h with h2 | h2
  · have := Nat.pow_le_pow_right (n := 2) (by omega) hk
    omega
  · exact h2

/-- the exponent of the radix -/
def rexp : Radix → ℕ
  | .r4 => 2
  | .r8 => 3
  | .r16 => 4

theorem endPure_quarter {n s : ℕ} (hn : n = 4 ∨ n = 8 ∨ n = 16) (hN : N = n * s)
    (hv : ∀ t < N, R 0 (v t) (v' ((t + N / 4) % N))) :
    ∀ t < N, R (qg inv (t / s)) (endPure inv mode n s v t) (endPure inv mode n s v' t) := by
  intro t ht
  unfold endPure
  rcases hn with rfl | rfl | rfl
  · exact dif_quarter (by rw [hN, Nat.mul_one]) (by norm_num) (fun p => H.endG_quarter (H.quarter4 inv) p) hv t ht
  · exact dif_quarter (by rw [hN, Nat.mul_one]) (by norm_num) (fun p => H.endG_quarter (H.quarter8 inv) p) hv t ht
  · exact dif_quarter (by rw [hN, Nat.mul_one]) (by norm_num) (fun p => H.endG_quarter (H.quarter16 inv) p) hv t ht

theorem endG_par {q M : ℕ} {B : BF q} (hB : ∀ b, LinLaws.Bfly (fun _ : C => R b) B) :
    ∀ b p xs xs', (∀ j, R b (xs j) (xs' j)) → ∀ i, R b (endG (C := C) B M mode p xs i) (endG (C := C) B M mode p xs' i) :=
  fun b _ xs _ h i => hB b xs _ _ (fun j => (H.lin b).scale (c := xs j) M mode (h j)) i

theorem endPure_par {n s : ℕ} (hn : n = 2 ∨ n = 4 ∨ n = 8 ∨ n = 16) (hN : N = n * s) (hs : s % 4 = 0)
    (hv : ∀ t < N, R (qg inv t) (v t) (v' t)) :
    ∀ t < N, R (qg inv t) (endPure inv mode n s v t) (endPure inv mode n s v' t) := by
  intro t ht
  unfold endPure
  rcases hn with rfl | rfl | rfl | rfl
  · exact dif_par (by rw [hN, Nat.mul_one]) hs (H.endG_par fun b => (H.lin b).bfly2) hv t ht
  · exact dif_par (by rw [hN, Nat.mul_one]) hs (H.endG_par fun b => (H.lin b).bfly4 inv) hv t ht
  · exact dif_par (by rw [hN, Nat.mul_one]) hs (H.endG_par fun b => (H.lin b).bfly8 inv) hv t ht
  · exact dif_par (by rw [hN, Nat.mul_one]) hs (H.endG_par fun b => (H.lin b).bfly16 inv) hv t ht

section recs
variable {q e : ℕ} [NeZero q] {B : BF q} {T : ℕ → Fin (q - 1) → C}

theorem difRec_par (hB : ∀ b, LinLaws.Bfly (fun _ : C => R b) B) (hq : q = 2 ^ e) (e2 : 2 ≤ e) (e4 : e ≤ 4) (l : ℕ) :
    ∀ {n s : ℕ} {v v' : ℕ → C}, n = 2 ^ l → 1 ≤ l → N = n * s → s % 4 = 0 → (∀ t < N, R (qg inv t) (v t) (v' t)) →
      ∀ t < N, R (qg inv t) (difRec q B inv T mode n s v t) (difRec q B inv T mode n s v' t) := by
  induction l using Nat.strong_induction_on with
  | _ l ih =>
    intro n s v v' hn hl hN hs hv t ht
    have hr := LinLaws.le16 hq e2 e4
    rw [difRec.eq_def q B inv T mode n s v, difRec.eq_def q B inv T mode n s v']
    by_cases hc : n ≤ q ∨ q < 2
    · rw [dif_pos hc, dif_pos hc]
      have hnr : n ≤ 16 := by omega
      exact H.endPure_par (by rw [hn] at hnr ⊢; exact pow_le_16 hl hnr) hN hs hv t ht
    · rw [dif_neg hc, dif_neg hc]
      obtain ⟨hel, hd, hN1, hN2⟩ := LinLaws.split hq hn hN (by omega)
      refine ih (l - e) (by omega) hd (by omega) hN2 (by rw [Nat.mul_mod, hs, Nat.mul_zero, Nat.zero_mod]) (dif_par hN1 hs (fun b p xs xs' h i => ?_) hv) t ht
      exact (H.lin b).difOut_hom (hB b) (fun _ => xs i) _ xs xs xs' h i

theorem difRec_quarter (hB : Quart R inv (B.fn (V := C))) (hB' : ∀ b, LinLaws.Bfly (fun _ : C => R b) B) (hq : q = 2 ^ e) (e2 : 2 ≤ e) (e4 : e ≤ 4) {l : ℕ}
    (hN : N = 2 ^ l) (hl : 2 ≤ l) (hv : ∀ t < N, R 0 (v t) (v' ((t + N / 4) % N))) :
    ∀ t < N, R (qg inv t) (difRec q B inv T mode N 1 v t) (difRec q B inv T mode N 1 v' t) := by
  intro t ht
  have hr := LinLaws.le16 hq e2 e4
  rw [difRec.eq_def q B inv T mode N 1 v, difRec.eq_def q B inv T mode N 1 v']
  by_cases hc : N ≤ q ∨ q < 2
  · rw [dif_pos hc, dif_pos hc]
    have hnr : N ≤ 16 := by omega
    have := H.endPure_quarter (inv := inv) (mode := mode) (n := N) (s := 1) (by rw [hN] at hnr ⊢; exact pow4_le_16 hl hnr) (by omega) hv t ht
    rwa [Nat.div_one] at this
  · rw [dif_neg hc, dif_neg hc]
    obtain ⟨hel, hd, hN1, hN2⟩ := LinLaws.split (N := N) (s := 1) hq hN (by omega) (by omega)
    have q2 : q % 4 = 0 := by
      rw [hq, show e = (e - 2) + 2 by omega, pow_add]; omega
    refine H.difRec_par (N := N) hB' hq e2 e4 (l - e) hd (by omega) hN2 (by rw [Nat.mul_one]; exact q2) (fun t ht => ?_) t ht
    have := dif_quarter (inv := inv) hN1 q2 (G := difG B T 1) (fun p => H.quarter_dif hB _) hv t ht
    rw [Nat.div_one] at this
    exact this

theorem ditRec_quarter (hB : Quart R inv (B.fn (V := C))) (hB' : ∀ b, LinLaws.Bfly (fun _ : C => R b) B) (hq : q = 2 ^ e) (e2 : 2 ≤ e) (e4 : e ≤ 4) (l : ℕ) :
    ∀ {n s : ℕ}, n = 2 ^ l → 2 ≤ l → l % e ≠ 1 → N = n * s → (∀ t < N, R 0 (v t) (v' ((t + N / 4) % N))) →
      ∀ t < N, R (qg inv (t / s)) (ditRec q B inv T mode n s v t) (ditRec q B inv T mode n s v' t) := by
  induction l using Nat.strong_induction_on with
  | _ l ih =>
    intro n s hn hl h1 hN hv t ht
    have hr := LinLaws.le16 hq e2 e4
    rw [ditRec.eq_def q B inv T mode n s v, ditRec.eq_def q B inv T mode n s v']
    by_cases hc : n ≤ q ∨ q < 2
    · rw [dif_pos hc, dif_pos hc]
      have hnr : n ≤ 16 := by omega
      exact H.endPure_quarter (by rw [hn] at hnr ⊢; exact pow4_le_16 hl hnr) hN hv t ht
    · rw [dif_neg hc, dif_neg hc]
      obtain ⟨hel, hd, hN1, hN2⟩ := LinLaws.split hq hn hN (by omega)
      have l1 : (l - e) % e ≠ 1 := by
        rw [← Nat.add_mod_right, Nat.sub_add_cancel (by omega)]; exact h1
      have l2 : 2 ≤ l - e := by
        by_contra hc
        have : l - e = 1 := by omega
        rw [this, Nat.mod_eq_of_lt (by omega)] at l1
        exact l1 rfl
      have m2 : n / q % 4 = 0 := by
        rw [hd, show l - e = (l - e - 2) + 2 by omega, pow_add]; omega
      exact dit_quarter hN1 m2 (fun b p xs xs' h i => (H.lin b).ditOut_hom (hB' b) (fun _ => xs i) _ xs xs xs' h i)
        (ih (l - e) (by omega) hd l2 l1 hN2 hv) t ht

end recs

theorem stockOut_quarter {th : ℕ} {dit : Bool} {rad : Radix} {l N : ℕ} (hN : N = 2 ^ l) (hl : 2 ≤ l) (hd : dit = true → l % rexp rad ≠ 1)
    (hv : ∀ t < N, R 0 (v t) (v' ((t + N / 4) % N))) :
    ∀ t < N, R (qg inv t) (stockOut C th dit rad inv mode N v t) (stockOut C th dit rad inv mode N v' t) := by
  have one : ∀ {f g : ℕ → C}, (∀ t < N, R (qg inv (t / 1)) (f t) (g t)) → ∀ t < N, R (qg inv t) (f t) (g t) := fun h t ht => by
    have := h t ht
    rwa [Nat.div_one] at this
  cases dit <;> cases rad
  · exact H.difRec_quarter (e := 2) (H.quarter4 inv) (fun b => (H.lin b).bfly4 inv) (by norm_num) (by omega) (by omega) hN hl hv
  · exact H.difRec_quarter (e := 3) (H.quarter8 inv) (fun b => (H.lin b).bfly8 inv) (by norm_num) (by omega) (by omega) hN hl hv
  · exact H.difRec_quarter (e := 4) (H.quarter16 inv) (fun b => (H.lin b).bfly16 inv) (by norm_num) (by omega) (by omega) hN hl hv
  · exact one (H.ditRec_quarter (e := 2) (H.quarter4 inv) (fun b => (H.lin b).bfly4 inv) (by norm_num) (by omega) (by omega) l hN hl (hd rfl) (by omega) hv)
  · exact one (H.ditRec_quarter (e := 3) (H.quarter8 inv) (fun b => (H.lin b).bfly8 inv) (by norm_num) (by omega) (by omega) l hN hl (hd rfl) (by omega) hv)
  · exact one (H.ditRec_quarter (e := 4) (H.quarter16 inv) (fun b => (H.lin b).bfly16 inv) (by norm_num) (by omega) (by omega) l hN hl (hd rfl) (by omega) hv)

end stock

/-! ### six-step and eight-step -/

section six
variable (H : QuarterLaws (F := F) R)
include H
variable {n : ℕ}
open ApLaws (mod_lt_of rc_lt)

theorem rec8_quarter {l N : ℕ} (hN : N = 2 ^ l) (hl : 2 ≤ l) (hv : ∀ t < N, R 0 (v t) (v' ((t + N / 4) % N))) :
    ∀ t < N, R (qg inv t) (difRec 8 (bf8 inv) inv (stockhamTw C .serial 8 N inv) mode N 1 v t) (difRec 8 (bf8 inv) inv (stockhamTw C .serial 8 N inv) mode N 1 v' t) :=
  H.difRec_quarter (e := 3) (H.quarter8 inv) (fun b => (H.lin b).bfly8 inv) (by norm_num) (by omega) (by omega) hN hl hv

theorem six_quarter {l : ℕ} (hn : n = 2 ^ l) (hl : 2 ≤ l) (hv : ∀ t < n * n, R 0 (v t) (v' ((t + n * n / 4) % (n * n)))) :
    ∀ t < n * n, R (qg inv t) (sixPure inv mode n v t) (sixPure inv mode n v' t) := by
  have n2 : n % 4 = 0 := by rw [hn, show l = (l - 2) + 2 by omega, pow_add]; omega
  have n0 : 0 < n := by rw [hn]; exact Nat.two_pow_pos l
  -- rows of the transposed array
  have a1 : ∀ t < n * n, R (qg inv (t % n)) (sixRowsV inv n (transpV n v) t) (sixRowsV inv n (transpV n v') t) := by
    intro t ht
    have hr : t / n < n := Nat.div_lt_of_lt_mul ht
    refine H.rec8_quarter (inv := inv) (mode := .scale_1) (v := fun j => transpV n v (t / n * n + j)) (v' := fun j => transpV n v' (t / n * n + j))
      hn hl (fun j hj => ?_) (t % n) (mod_lt_of ht)
    have key : ∀ i < n, (t / n * n + i) / n + (t / n * n + i) % n * n = t / n + n * i := fun i hi => by
      rw [Nat.mul_comm (t / n) n, Nat.mul_add_div n0, Nat.div_eq_of_lt hi, Nat.mul_add_mod, Nat.mod_eq_of_lt hi]
      ring
    have hj' : (j + n / 4) % n < n := Nat.mod_lt _ n0
    show R 0 (v _) (v' _)
    rw [key j hj, key _ hj']
    obtain ⟨e, lt⟩ := lane (q := n) (h := n / 4) (M := n) (N := n * n) (b := t / n) (j := ⟨j, hj⟩) (j' := ⟨(j + n / 4) % n, hj'⟩) (by omega) hr rfl rfl
    have := hv _ lt
    rw [e] at this
    exact this
  have a2 : ∀ t < n * n, R (qg inv (t / n)) (sixMultV inv mode n (sixRowsV inv n (transpV n v)) t) (sixMultV inv mode n (sixRowsV inv n (transpV n v')) t) := by
    intro t ht
    have hr : t / n < n := Nat.div_lt_of_lt_mul ht
    have := a1 (t / n + t % n * n) (rc_lt hr (mod_lt_of ht))
    rw [Nat.add_mul_mod_self_right, Nat.mod_eq_of_lt hr] at this
    exact H.mulL _ this
  have a3 : ∀ t < n * n, R (qg inv (t / n)) (sixRowsV inv n (sixMultV inv mode n (sixRowsV inv n (transpV n v))) t) (sixRowsV inv n (sixMultV inv mode n (sixRowsV inv n (transpV n v'))) t) := by
    intro t ht
    have hr : t / n < n := Nat.div_lt_of_lt_mul ht
    refine (H.lin _).rec8_hom (inv := inv) (mode := .scale_1)
      (u := fun j => sixMultV inv mode n (sixRowsV inv n (transpV n v)) (t / n * n + j))
      (v := fun j => sixMultV inv mode n (sixRowsV inv n (transpV n v)) (t / n * n + j))
      (v' := fun j => sixMultV inv mode n (sixRowsV inv n (transpV n v')) (t / n * n + j)) hn (by omega) (fun j hj => ?_) (t % n) (mod_lt_of ht)
    have := a2 (t / n * n + j) (by rw [Nat.add_comm]; exact rc_lt hj hr)
    rwa [Nat.mul_comm (t / n) n, Nat.mul_add_div n0, Nat.div_eq_of_lt hj, Nat.add_zero, Nat.mul_comm n] at this
  intro t ht
  have hr : t / n < n := Nat.div_lt_of_lt_mul ht
  have := a3 (t / n + t % n * n) (rc_lt hr (mod_lt_of ht))
  rw [Nat.add_mul_div_right _ _ n0, Nat.div_eq_of_lt hr, Nat.zero_add, qg_mod n2] at this
  exact this

theorem eight_quarter {l : ℕ} (hn : n = 2 ^ l) (hl : 1 ≤ l) (hv : ∀ t < 8 * (n * n), R 0 (v t) (v' ((t + 8 * (n * n) / 4) % (8 * (n * n))))) :
    ∀ t < 8 * (n * n), R (qg inv t) (eightPure inv mode n v t) (eightPure inv mode n v' t) := by
  intro t ht
  have h1 : 0 < n * n := by omega
  have a1 : ∀ t < 8 * (n * n), R (qg inv (t / (n * n))) (eightPreV inv mode (n * n) v t) (eightPreV inv mode (n * n) v' t) := by
    intro t ht
    have hb : t / (n * n) < 8 := Nat.div_lt_of_lt_mul (by omega)
    have := H.quarter_dif (H.quarter8 inv) (fun k => wpow (cj inv (wr1Val C (8 * (n * n)) (t % (n * n)))) (k.val + 1))
      (fun j => scalepz (8 * (n * n)) mode (v (t % (n * n) + n * n * j.val)))
      (fun j => scalepz (8 * (n * n)) mode (v' (t % (n * n) + n * n * j.val)))
      (fun j j' hj => by
        obtain ⟨e, lt⟩ := lane (q := 8) (h := 2) (M := n * n) (N := 8 * (n * n)) (b := t % (n * n)) (by omega) (Nat.mod_lt _ h1) rfl hj
        have := hv _ lt
        rw [e] at this
        exact (H.lin _).scale (c := (CArith.cmk (fofNat 0) (fofNat 0) : C)) _ mode this) (Fin.ofNat 8 (t / (n * n)))
    rw [Fin.val_ofNat, Nat.mod_eq_of_lt hb] at this
    exact this
  have a2 : ∀ t < 8 * (n * n), R (qg inv (t / (n * n))) (eightSubV inv n (eightPreV inv mode (n * n) v) t) (eightSubV inv n (eightPreV inv mode (n * n) v') t) := by
    intro t ht
    have hb : t / (n * n) < 8 := Nat.div_lt_of_lt_mul (by omega)
    refine (H.lin _).six_hom (inv := inv) (mode := .scale_1) (u := fun j => eightPreV inv mode (n * n) v (t / (n * n) * (n * n) + j))
      (v := fun j => eightPreV inv mode (n * n) v (t / (n * n) * (n * n) + j))
      (v' := fun j => eightPreV inv mode (n * n) v' (t / (n * n) * (n * n) + j)) hn hl (fun j hj => ?_) (t % (n * n)) (Nat.mod_lt _ h1)
    have := a1 (t / (n * n) * (n * n) + j) (by rw [Nat.add_comm]; exact rc_lt hj hb)
    rwa [Nat.mul_comm (t / (n * n)), Nat.mul_add_div h1, Nat.div_eq_of_lt hj, Nat.add_zero, Nat.mul_comm (n * n)] at this
  have h8 : t / 8 < n * n := by omega
  have := a2 (t / 8 + n * n * (t % 8)) (by
    rw [Nat.mul_comm (n * n)]
    exact rc_lt h8 (by omega))
  rw [Nat.add_mul_div_left _ _ h1, Nat.div_eq_of_lt h8, Nat.zero_add, qg_mod (by norm_num)] at this
  exact this

theorem sixOut_quarter {l N : ℕ} (hN : N = 2 ^ l) (hl : 2 ≤ l) (hv : ∀ t < N, R 0 (v t) (v' ((t + N / 4) % N))) :
    ∀ t < N, R (qg inv t) (sixOut inv mode l v t) (sixOut inv mode l v' t) := by
  intro t ht
  unfold sixOut
  by_cases h5 : l ≤ 5
  · rw [if_pos h5, if_pos h5]
    subst hN
    exact H.rec8_quarter rfl hl hv t ht
  · rw [if_neg h5, if_neg h5]
    by_cases h2 : l % 2 = 1
    · rw [if_pos h2, if_pos h2]
      have e := pow_split_odd h5 h2
      rw [hN, e] at hv ht
      exact H.eight_quarter rfl (by omega) hv t ht
    · rw [if_neg h2, if_neg h2]
      have e : 2 ^ l = 2 ^ (l / 2) * 2 ^ (l / 2) := by rw [← pow_add]; congr 1; omega
      rw [hN, e] at hv ht
      exact H.six_quarter rfl (by omega) hv t ht

end six

/-! ### mixed radix -/

section mix
variable (H : QuarterLaws (F := F) R)
include H
variable {N : ℕ}

omit H in
theorem core_par {q b m s N : ℕ} [NeZero q] {S : BFT q b} (hS : ∀ b, LinLaws.BflyT (fun _ : C => R b) S) (hN : N = q * m * s) (hs : s % 4 = 0)
    (wv : ℕ → C) (tw : ℕ → Fin b → ℕ) (hv : ∀ t < N, R (qg inv t) (v t) (v' t)) :
    ∀ t < N, R (qg inv t) (difPure q m s (coreG S wv tw) v t) (difPure q m s (coreG S wv tw) v' t) :=
  dif_par hN hs (fun b _ xs xs' h i => hS b xs xs xs' (fun _ => wv 0) _ h i) hv

theorem mixAny_par (hR : ∀ b, LinLaws.MulR (E := F) (A := C) (F := F) (C := C) fun _ => R b) {wv : ℕ → C} (n : ℕ) :
    ∀ {s : ℕ} {v v' : ℕ → C}, N = n * s → 2 ≤ n → s % 4 = 0 → (∀ t < N, R (qg inv t) (v t) (v' t)) →
      ∀ t < N, R (qg inv t) (mixAnyRec inv N wv n s v t) (mixAnyRec inv N wv n s v' t) := by
  induction n using Nat.strong_induction_on with
  | _ n ih =>
    intro s v v' hN h2 hs hv
    have hpr := Nat.minFac_prime (n := n) (by omega)
    have hdv := Nat.minFac_dvd n
    have : NeZero n.minFac := ⟨hpr.ne_zero⟩
    rw [mixAnyRec.eq_def inv N wv n s v, mixAnyRec.eq_def inv N wv n s v', dif_neg (by omega), dif_neg (by omega)]
    by_cases hp : n.minFac = n
    · rw [if_pos hp, if_pos hp]
      exact dif_par (by rw [hp, Nat.mul_one]; exact hN) hs
        (fun b q xs xs' h i => (H.lin b).anyG_hom (@hR b) (wu := wv) none none rfl q xs xs xs' h i) hv
    · rw [if_neg hp, if_neg hp]
      obtain ⟨hN1, hN2⟩ := LinLaws.split_of (q := n.minFac) hN (Nat.mod_eq_zero_of_dvd hdv)
      obtain ⟨hlt, hge⟩ := LinLaws.div_ge hpr.two_le h2 (Nat.mod_eq_zero_of_dvd hdv) (fun e => hp e.symm)
      exact ih _ hlt hN2 hge (by rw [Nat.mul_mod, hs, Nat.mul_zero, Nat.zero_mod])
        (dif_par hN1 hs (fun b q xs xs' h i => (H.lin b).anyG_hom (@hR b) (wu := wv) (some _) (some _) rfl q xs xs xs' h i) hv)

theorem mixRec_par {wv : ℕ → C} (n : ℕ) :
    ∀ {s : ℕ} {v v' : ℕ → C}, ((∀ b, LinLaws.MulR (E := F) (A := C) (F := F) (C := C) fun _ => R b) ∨ ∃ k, n = 2 ^ k) → N = n * s → 2 ≤ n → s % 4 = 0 → (∀ t < N, R (qg inv t) (v t) (v' t)) →
      ∀ t < N, R (qg inv t) (mixRec inv N wv n s v t) (mixRec inv N wv n s v' t) := by
  induction n using Nat.strong_induction_on with
  | _ n ih =>
    intro s v v' hR hN h2 hs hv
    have hqs : ∀ q, q * s % 4 = 0 := fun q => by rw [Nat.mul_mod, hs, Nat.mul_zero, Nat.zero_mod]
    rw [mixRec.eq_def inv N wv n s v, mixRec.eq_def inv N wv n s v', dif_neg (by omega), dif_neg (by omega)]
    have hd : ∀ {q}, n % q = 0 → (∀ b, LinLaws.MulR (E := F) (A := C) (F := F) (C := C) fun _ => R b) ∨ ∃ k, n / q = 2 ^ k := fun {q} hq => hR.imp_right fun ⟨k, hk⟩ => by
      obtain ⟨j, -, hj⟩ := (Nat.dvd_prime_pow Nat.prime_two).1 (hk ▸ Nat.div_dvd_of_dvd (Nat.dvd_of_mod_eq_zero hq))
      exact ⟨j, hk ▸ hj⟩
    by_cases h8 : n % 8 = 0
    · rw [if_pos h8, if_pos h8]
      by_cases hn : n = 8
      · rw [if_pos hn, if_pos hn]
        subst hn
        exact core_par (fun b => LinLaws.bt_end ((H.lin b).bfly8 inv)) (by omega) hs _ _ hv
      · rw [if_neg hn, if_neg hn]
        obtain ⟨n1, n2⟩ := LinLaws.split_of (q := 8) hN h8
        obtain ⟨hlt, hge⟩ := LinLaws.div_ge (by omega) h2 h8 hn
        refine ih _ hlt (hd h8) n2 hge (hqs 8) ?_
        by_cases h1 : 2 ≤ s
        · rw [if_pos h1, if_pos h1]
          exact core_par (fun b => (H.lin b).bt_mix8s) n1 hs _ _ hv
        · rw [if_neg h1, if_neg h1]
          exact core_par (fun b => (H.lin b).bt_mix8one) n1 hs _ _ hv
    rw [if_neg h8, if_neg h8]
    by_cases h4 : n % 4 = 0
    · rw [if_pos h4, if_pos h4]
      by_cases hn : n = 4
      · rw [if_pos hn, if_pos hn]
        subst hn
        exact core_par (fun b => LinLaws.bt_end ((H.lin b).bfly4 inv)) (by omega) hs _ _ hv
      · rw [if_neg hn, if_neg hn]
        obtain ⟨n1, n2⟩ := LinLaws.split_of (q := 4) hN h4
        obtain ⟨hlt, hge⟩ := LinLaws.div_ge (by omega) h2 h4 hn
        refine ih _ hlt (hd h4) n2 hge (hqs 4) ?_
        by_cases h1 : 2 ≤ s
        · rw [if_pos h1, if_pos h1]
          exact core_par (fun b => (H.lin b).bt_mix4s) n1 hs _ _ hv
        · rw [if_neg h1, if_neg h1]
          exact core_par (fun b => (H.lin b).bt_mix4one) n1 hs _ _ hv
    rw [if_neg h4, if_neg h4]
    by_cases h22 : n % 2 = 0
    · rw [if_pos h22, if_pos h22]
      by_cases hn : n = 2
      · rw [if_pos hn, if_pos hn]
        subst hn
        exact core_par (fun b => LinLaws.bt_end (H.lin b).bfly2) (by omega) hs _ _ hv
      · rw [if_neg hn, if_neg hn]
        obtain ⟨n1, n2⟩ := LinLaws.split_of (q := 2) hN h22
        obtain ⟨hlt, hge⟩ := LinLaws.div_ge (by omega) h2 h22 hn
        exact ih _ hlt (hd h22) n2 hge (hqs 2) (core_par (fun b => (H.lin b).bt_mix2) n1 hs _ _ hv)
    rw [if_neg h22, if_neg h22]
    replace hR : ∀ b, LinLaws.MulR (E := F) (A := C) (F := F) (C := C) fun _ => R b := hR.resolve_right fun ⟨k, hk⟩ => by
      rcases k with _ | k
      · omega
      · rw [pow_succ] at hk; omega
    by_cases h5 : n % 5 = 0
    · rw [if_pos h5, if_pos h5]
      by_cases hn : n = 5
      · rw [if_pos hn, if_pos hn]
        subst hn
        exact core_par (fun b => (H.lin b).bt_end5) (by omega) hs _ _ hv
      · rw [if_neg hn, if_neg hn]
        obtain ⟨n1, n2⟩ := LinLaws.split_of (q := 5) hN h5
        obtain ⟨hlt, hge⟩ := LinLaws.div_ge (by omega) h2 h5 hn
        exact ih _ hlt (.inl hR) n2 hge (hqs 5) (core_par (fun b => (H.lin b).bt_mix5 (@hR b)) n1 hs _ _ hv)
    rw [if_neg h5, if_neg h5]
    by_cases h3 : n % 3 = 0
    · rw [if_pos h3, if_pos h3]
      by_cases hn : n = 3
      · rw [if_pos hn, if_pos hn]
        subst hn
        exact core_par (fun b => (H.lin b).bt_end3) (by omega) hs _ _ hv
      · rw [if_neg hn, if_neg hn]
        obtain ⟨n1, n2⟩ := LinLaws.split_of (q := 3) hN h3
        obtain ⟨hlt, hge⟩ := LinLaws.div_ge (by omega) h2 h3 hn
        exact ih _ hlt (.inl hR) n2 hge (hqs 3) (core_par (fun b => (H.lin b).bt_mix3 (@hR b)) n1 hs _ _ hv)
    rw [if_neg h3, if_neg h3]
    exact H.mixAny_par hR n hN h2 hs hv

/-- the first stage, of radix 4 or 8 -/
theorem mixRec_quarter {wv : ℕ → C} (hR : (∀ b, LinLaws.MulR (E := F) (A := C) (F := F) (C := C) fun _ => R b) ∨ ∃ k, N = 2 ^ k) (h2 : N % 4 = 0) (h0 : 0 < N) (hv : ∀ t < N, R 0 (v t) (v' ((t + N / 4) % N))) :
    ∀ t < N, R (qg inv t) (mixRec inv N wv N 1 v t) (mixRec inv N wv N 1 v' t) := by
  have one : ∀ {f g : ℕ → C}, (∀ t < N, R (qg inv (t / 1)) (f t) (g t)) → ∀ t < N, R (qg inv t) (f t) (g t) := fun h t ht => by
    have := h t ht
    rwa [Nat.div_one] at this
  have hN : N = N * 1 := by omega
  rw [mixRec.eq_def inv N wv N 1 v, mixRec.eq_def inv N wv N 1 v', dif_neg (by omega), dif_neg (by omega)]
  have hd : ∀ {q}, N % q = 0 → (∀ b, LinLaws.MulR (E := F) (A := C) (F := F) (C := C) fun _ => R b) ∨ ∃ k, N / q = 2 ^ k := fun {q} hq => hR.imp_right fun ⟨k, hk⟩ => by
    obtain ⟨j, -, hj⟩ := (Nat.dvd_prime_pow Nat.prime_two).1 (hk ▸ Nat.div_dvd_of_dvd (Nat.dvd_of_mod_eq_zero hq))
    exact ⟨j, hk ▸ hj⟩
  by_cases h8 : N % 8 = 0
  · rw [if_pos h8, if_pos h8]
    by_cases hn : N = 8
    · rw [if_pos hn, if_pos hn]
      exact one (dif_quarter (by omega) (by norm_num) (fun p => H.quarter8 inv) hv)
    · rw [if_neg hn, if_neg hn]
      obtain ⟨n1, n2⟩ := LinLaws.split_of (q := 8) hN h8
      obtain ⟨hlt, hge⟩ := LinLaws.div_ge (by omega) (by omega) h8 hn
      rw [if_neg (by omega), if_neg (by omega)]
      exact H.mixRec_par _ (hd h8) n2 hge (by norm_num) (one (dif_quarter n1 (by norm_num) (fun p => H.quarter_dif (H.quarter8 inv) (fun k => wpow (cj inv (wv p)) (k.val + 1))) hv))
  rw [if_neg h8, if_neg h8]
  have h4 := h2
  rw [if_pos h4, if_pos h4]
  by_cases hn : N = 4
  · rw [if_pos hn, if_pos hn]
    exact one (dif_quarter (by omega) (by norm_num) (fun p => H.quarter4 inv) hv)
  · rw [if_neg hn, if_neg hn]
    obtain ⟨n1, n2⟩ := LinLaws.split_of (q := 4) hN h4
    obtain ⟨hlt, hge⟩ := LinLaws.div_ge (by omega) (by omega) h4 hn
    rw [if_neg (by omega), if_neg (by omega)]
    exact H.mixRec_par _ (hd h4) n2 hge (by norm_num) (one (dif_quarter n1 (by norm_num) (fun p => H.quarter_dif (H.quarter4 inv) (fun k => wpow (cj inv (wv p)) (k.val + 1))) hv))

theorem mixOut_quarter (hR : (∀ b, LinLaws.MulR (E := F) (A := C) (F := F) (C := C) fun _ => R b) ∨ ∃ k, N = 2 ^ k) (h2 : N % 4 = 0) (h0 : 0 < N) (hv : ∀ t < N, R 0 (v t) (v' ((t + N / 4) % N))) :
    ∀ t < N, R (qg inv t) (mixOut C inv mode N v t) (mixOut C inv mode N v' t) := fun t ht =>
  (H.lin _).mixScale (c := (CArith.cmk (fofNat 0) (fofNat 0) : C)) N mode (H.mixRec_quarter hR h2 h0 hv t ht)

/-! ### all algorithms -/

omit H in
theorem dispatch_dit {l : ℕ} {rad : Radix} (h : dispatch (some l) = some (.stock true rad)) (h2 : 2 ≤ l) : l % rexp rad ≠ 1 := by
  unfold dispatch at h
  split at h <;> first
    | (cases h; done)
    | (rename_i e; cases e; cases h; first | omega | (show _ % 3 ≠ 1; norm_num))

theorem fftOut_quarter {thr : Thr} (hR : (∀ b, LinLaws.MulR (E := F) (A := C) (F := F) (C := C) fun _ => R b) ∨ ∃ k, N = 2 ^ k) (h2 : N % 4 = 0)
    (hv : ∀ t < N, R 0 (v t) (v' ((t + N / 4) % N))) :
    ∀ t < N, R (qg inv t) (fftOut C thr inv mode N v t) (fftOut C thr inv mode N v' t) := by
  intro t ht
  unfold fftOut
  have p2 : ∀ l, N = 2 ^ l → 1 ≤ l → 2 ≤ l := by
    rintro l rfl hl
    by_contra hc
    obtain rfl : l = 1 := by omega
    norm_num at h2
  cases hd : dispatch (logOf N) with
  | none =>
    obtain ⟨k, hk⟩ := dispatch_ne_none (n := N) (by omega)
    rw [hd] at hk; cases hk
  | some kind =>
    have hk := AlgoKind.usable_of_dispatch hd
    show R (qg inv t) (algoOut C thr kind inv mode N v t) (algoOut C thr kind inv mode N v' t)
    unfold algoOut
    cases kind with
    | stock dit rad =>
      obtain ⟨l, rfl, hl, _⟩ := hk
      rw [logOf_pow] at hd
      exact H.stockOut_quarter rfl (p2 l rfl hl) (fun hdit => dispatch_dit (hdit ▸ hd) (p2 l rfl hl)) hv t ht
    | six =>
      obtain ⟨l, rfl, hl, _⟩ := hk
      simp only [logLoop_pow]
      exact H.sixOut_quarter rfl (p2 l rfl hl) hv t ht
    | mixed => exact H.mixOut_quarter hR h2 (by omega) hv t ht

end mix

/-! ### real transforms -/

section real
variable (H : QuarterLaws (F := F) R) {r : F → F → Prop}
include H

theorem rfftFwd_quarter (L : HomLaws (E := F) (A := C) (F := F) (C := C) (fun _ => r) fun _ => R 0)
    (cn : ∀ k < 4, ∀ {a b : C}, R k a b → R ((4 - k) % 4) (cnjpz a) (cnjpz b)) {thr : Thr} {m : ℕ}
    (hR : (∀ b, LinLaws.MulR (E := F) (A := C) (F := F) (C := C) fun _ => R b) ∨ ∃ k, m = 2 ^ k) (hm : m % 4 = 0)
    (hv : ∀ t < 2 * m, R 0 (v t) (v' ((t + m / 2) % (2 * m)))) :
    ∀ t < 2 * m, R (qg false t) (rfftFwdOut C thr mode m v t) (rfftFwdOut C thr mode m v' t) := by
  intro t ht
  let d : F := fofNat 0
  let o : C := CArith.cmk d d
  have hz : ∀ p < m, R 0 (rfftZin C v p) (rfftZin C v' ((p + m / 4) % m)) := by
    intro p hp
    have h0 := hv (2 * p) (by omega)
    have h1 := hv (2 * p + 1) (by omega)
    obtain ⟨e0, e1⟩ : (2 * p + m / 2) % (2 * m) = 2 * ((p + m / 4) % m) ∧ (2 * p + 1 + m / 2) % (2 * m) = 2 * ((p + m / 4) % m) + 1 := by
      by_cases hc : p + m / 4 < m
      · rw [Nat.mod_eq_of_lt hc, Nat.mod_eq_of_lt (by omega), Nat.mod_eq_of_lt (by omega)]; omega
      · rw [show p + m / 4 = p + m / 4 - m + m by omega, Nat.add_mod_right, Nat.mod_eq_of_lt (a := p + m / 4 - m) (by omega),
          show 2 * p + m / 2 = 2 * (p + m / 4 - m) + 2 * m by omega, Nat.add_mod_right, Nat.mod_eq_of_lt (by omega),
          show 2 * p + 1 + m / 2 = 2 * (p + m / 4 - m) + 1 + 2 * m by omega, Nat.add_mod_right, Nat.mod_eq_of_lt (by omega)]
        exact ⟨rfl, rfl⟩
    rw [e0] at h0
    rw [e1] at h1
    exact L.pair (p := d) (q := d) (L.re (c := o) h0) (L.re (c := o) h1)
  have hZ := H.fftOut_quarter (thr := thr) (inv := false) (mode := .scale_1) hR hm hz
  unfold rfftFwdOut
  generalize fftOut C thr false .scale_1 m (rfftZin C v) = Z at hZ
  generalize fftOut C thr false .scale_1 m (rfftZin C v') = Z' at hZ
  have neg : ∀ a b, (a + b) % 4 = 0 → (4 - qg false a) % 4 = qg false b := by
    intro a b h
    unfold qg
    rw [if_neg Bool.false_ne_true, if_neg Bool.false_ne_true]; omega
  have lt4 : ∀ a, qg false a < 4 := fun a => Nat.mod_lt _ (by norm_num)
  have hmid : ∀ t, 1 ≤ t → t < m → R (qg false t) (rfftMid mode m (rfftTab C (2 * m)) Z t) (rfftMid mode m (rfftTab C (2 * m)) Z' t) := by
    intro t h1 ht
    have a := hZ t ht
    have b := hZ (m - t) (by omega)
    have cb := cn _ (lt4 _) b
    rw [neg (m - t) t (by omega)] at cb
    have ca := cn _ (lt4 _) a
    rw [neg t (m - t) (by omega)] at ca
    have rs : ∀ {k} {x y : C}, R k x y → R k (rsc mode (2 * m) x) (rsc mode (2 * m) y) := fun {k} {x y} h => by
      cases mode
      · exact h
      · exact (H.lin k).scl (c := o) (fofNat 0) _ h
      · exact (H.lin k).scl (c := o) (fofNat 0) _ h
    unfold rfftMid
    split
    · exact rs (H.sub a (H.mulL _ (H.sub a cb)))
    · refine rs ?_
      rw [← neg (m - t) t (by omega)]
      exact cn _ (lt4 _) (H.add ca (H.mulL _ (H.sub b ca)))
  have z0 := hZ 0 (by omega)
  have s00 : qg false 0 = 0 := rfl
  rw [s00] at z0
  have ends : ∀ {x y : F}, r x y → R 0 (ofD C (rsc0 F mode (2 * m) x)) (ofD C (rsc0 F mode (2 * m) y)) := fun h =>
    L.ofD_hom (y := d) (L.rsc0_hom (mode := mode) (y := d) (2 * m) h)
  unfold rfftPostOut
  split
  · rename_i h0
    rw [h0, s00]
    exact ends (L.dadd (p := d) (q := d) (L.re (c := o) z0) (L.im (c := o) z0))
  split
  · exact hmid t (by omega) (by omega)
  split
  · rename_i h0
    rw [h0, show qg false m = 0 by unfold qg; rw [if_neg Bool.false_ne_true]; omega]
    exact ends (L.dsub (p := d) (q := d) (L.re (c := o) z0) (L.im (c := o) z0))
  · have := cn _ (lt4 _) (hmid (2 * m - t) (by omega) (by omega))
    rw [neg (2 * m - t) t (by omega)] at this
    exact this

end real

end QuarterLaws

end OTFFT
