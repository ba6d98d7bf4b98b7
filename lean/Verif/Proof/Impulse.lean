/-
Exact results: the transform of an impulse is constant, the transform of a constant is an impulse, if the arithmetic
knows that 0 and 1 are 0 and 1.
-/
import Verif.Proof.Hom

noncomputable section

namespace OTFFT

set_option linter.unusedSectionVars false

variable {F C : Type} [DArith F] [CArith F C]

/-- what is needed of the primitives: `O` is zero, `I` is one, `Rep` are the numbers that rounding leaves alone -/
structure FlatLaws (O I : C) (Rep : C → Prop) : Prop where
  subSelf : ∀ a : C, subpz a a = O
  addO : ∀ {a}, Rep a → addpz a O = a
  Oadd : ∀ {a}, Rep a → addpz O a = a
  subO : ∀ {a}, Rep a → subpz a O = a
  jx : jxpz O = O
  v8 : v8xpz O = O
  w8 : w8xpz O = O
  h1 : h1xpz O = O
  h3 : h3xpz O = O
  hf : hfxpz O = O
  hd : hdxpz O = O
  mulO : ∀ w, mulpz w O = O
  Omul : ∀ w, mulpz O w = O
  Imul : ∀ {a}, Rep a → mulpz I a = a
  mulI : ∀ {a}, Rep a → mulpz a I = a
  cnj : cnjpz I = I
  exp0 : ∀ x : F, CArith.expj (fmul x (fofNat 0)) = I
  exp00 : ∀ x y : F, CArith.expj (fmul (fmul x (fofNat 0)) y) = I
  mix0 : ∀ n, mixTabVal C n 0 = I
  zero : (CArith.cmk (fofNat 0) (fofNat 0) : C) = O
  repAdd : ∀ a b : C, Rep (addpz a b)
  repO : Rep O
  repI : Rep I

namespace FlatLaws
variable {O I : C} {Rep : C → Prop} {inv : Bool} {v : ℕ → C} {g : ℕ → C} {N : ℕ}

/-- doubled `l` times -/
def dbl (l : ℕ) (a : C) : C := (fun z => addpz z z)^[l] a

theorem dbl_succ (l : ℕ) (a : C) : dbl (l + 1) a = addpz (dbl l a) (dbl l a) := Function.iterate_succ_apply' _ _ _
theorem dbl_add (l k : ℕ) (a : C) : dbl (l + k) a = dbl l (dbl k a) := Function.iterate_add_apply _ _ _ _

theorem dbl_rep (L : FlatLaws O I Rep) {a : C} (h : Rep a) : ∀ l, Rep (dbl l a)
  | 0 => h
  | l + 1 => by rw [dbl_succ]; exact L.repAdd _ _

theorem dbl_O (L : FlatLaws O I Rep) : ∀ l, dbl l O = O
  | 0 => rfl
  | l + 1 => by rw [dbl_succ, L.dbl_O l, L.addO L.repO]

/-! ### butterflies -/

/-- impulse: the butterfly copies operand 0 if the others are zero -/
def Imp (O : C) (Rep : C → Prop) {q : ℕ} (f : (Fin q → C) → Fin q → C) : Prop :=
  ∀ c, Rep c → ∀ k, f (fun j => if j.val = 0 then c else O) k = c

/-- constant: sum in result 0, zero elsewhere -/
def Con (O : C) (Rep : C → Prop) {q : ℕ} (e : ℕ) (f : (Fin q → C) → Fin q → C) : Prop :=
  ∀ c, Rep c → ∀ k : Fin q, f (fun _ => c) k = if k.val = 0 then dbl e c else O

theorem imp2 (L : FlatLaws O I Rep) : Imp O Rep (bf2.fn (V := C)) := by
  intro c hc k
  fin_cases k
  · exact L.addO hc
  · exact L.subO hc

theorem con2 (L : FlatLaws O I Rep) : Con O Rep 1 (bf2.fn (V := C)) := by
  intro c hc k
  fin_cases k
  · rfl
  · exact L.subSelf _

theorem imp4 (L : FlatLaws O I Rep) (inv : Bool) : Imp O Rep ((bf4 inv).fn (V := C)) := by
  intro c hc k
  cases inv <;> fin_cases k <;>
  simp [bf4, bf4fwd, bf4inv, L.addO hc, L.subO hc, L.addO L.repO, L.subSelf, L.jx]

theorem con4 (L : FlatLaws O I Rep) (inv : Bool) : Con O Rep 2 ((bf4 inv).fn (V := C)) := by
  intro c hc k
  cases inv <;> fin_cases k <;>
  simp [bf4, bf4fwd, bf4inv, L.addO L.repO, L.subSelf, L.jx, dbl]

theorem imp8 (L : FlatLaws O I Rep) (inv : Bool) : Imp O Rep ((bf8 inv).fn (V := C)) := by
  intro c hc k
  cases inv <;> fin_cases k <;>
  simp [bf8, bf8fwd, bf8inv, L.addO hc, L.subO hc, L.addO L.repO, L.subSelf, L.jx, L.v8, L.w8]

theorem con8 (L : FlatLaws O I Rep) (inv : Bool) : Con O Rep 3 ((bf8 inv).fn (V := C)) := by
  intro c hc k
  cases inv <;> fin_cases k <;>
  simp [bf8, bf8fwd, bf8inv, L.addO L.repO, L.subSelf, L.jx, L.v8, L.w8, dbl]

theorem imp16 (L : FlatLaws O I Rep) (inv : Bool) : Imp O Rep ((bf16 inv).fn (V := C)) := by
  intro c hc k
  cases inv <;> fin_cases k <;>
  simp [bf16, bf16fwd, bf16inv, L.addO hc, L.subO hc, L.addO L.repO, L.subSelf, L.jx, L.v8, L.w8, L.h1, L.h3, L.hf, L.hd]

theorem con16 (L : FlatLaws O I Rep) (inv : Bool) : Con O Rep 4 ((bf16 inv).fn (V := C)) := by
  intro c hc k
  cases inv <;> fin_cases k <;>
  simp [bf16, bf16fwd, bf16inv, L.addO L.repO, L.subSelf, L.jx, L.v8, L.w8, L.h1, L.h3, L.hf, L.hd, dbl]

theorem Imp.zero {q : ℕ} {f : (Fin q → C) → Fin q → C} (h : Imp O Rep f) (hO : Rep O) (k : Fin q) : f (fun _ => O) k = O := by
  have := h O hO k
  simpa using this

section outs
variable {q e : ℕ} {B : BF q} {T : Fin (q - 1) → C}

theorem dif_zero (L : FlatLaws O I Rep) (h : Imp O Rep (B.fn (V := C))) (T : Fin (q - 1) → C) (k : Fin q) : difOut B (fun _ => O) T k = O := by
  unfold difOut
  split
  · exact h.zero L.repO k
  · rw [h.zero L.repO k, L.mulO]

theorem dif_imp (L : FlatLaws O I Rep) (h : Imp O Rep (B.fn (V := C))) (hT : ∀ k, T k = I) : Imp O Rep (difOut B · T) := by
  intro c hc k
  show difOut B _ T k = c
  unfold difOut
  split
  · exact h c hc k
  · rw [h c hc k, hT, L.Imul hc]

theorem dif_con (L : FlatLaws O I Rep) (h : Con O Rep e (B.fn (V := C))) : Con O Rep e (difOut B · T) := by
  intro c hc k
  show difOut B _ T k = _
  unfold difOut
  split
  · rename_i hk; rw [h c hc k, if_pos hk]
  · rename_i hk; rw [h c hc k, if_neg hk, L.mulO]

theorem dit_imp (L : FlatLaws O I Rep) (h : Imp O Rep (B.fn (V := C))) : Imp O Rep (ditOut B · T) := by
  intro c hc k
  show ditOut B _ T k = c
  unfold ditOut
  rw [show (fun j : Fin q => if h : j.val = 0 then (if j.val = 0 then c else O) else mulpz (T ⟨j.val - 1, by omega⟩) (if j.val = 0 then c else O)) =
    fun j => if j.val = 0 then c else O from funext fun j => by
      split
      · rfl
      · rw [L.mulO]]
  exact h c hc k

theorem dit_zero (L : FlatLaws O I Rep) (h : Imp O Rep (B.fn (V := C))) (k : Fin q) : ditOut B (fun _ => O) T k = O := by
  have := L.dit_imp (T := T) h O L.repO k
  simpa using this

theorem dit_con (L : FlatLaws O I Rep) (h : Con O Rep e (B.fn (V := C))) (hT : ∀ k, T k = I) : Con O Rep e (ditOut B · T) := by
  intro c hc k
  show ditOut B _ T k = _
  unfold ditOut
  rw [show (fun j : Fin q => if h : j.val = 0 then c else mulpz (T ⟨j.val - 1, by omega⟩) c) = fun _ => c from funext fun j => by
      split
      · rfl
      · rw [hT, L.Imul hc]]
  exact h c hc k

end outs

/-! ### stages -/

section stages
variable {q m s : ℕ} [NeZero q] {G : ℕ → (Fin q → C) → Fin q → C}

theorem dif_imp_stage (hN : N = q * m * s) (h0 : ∀ p k, G p (fun _ => O) k = O) (h1 : Imp O Rep (G 0)) (hg : ∀ t, Rep (g t))
    (hv : ∀ t < N, v t = if t < s then g t else O) :
    ∀ t < N, difPure q m s G v t = if t < q * s then g (t % s) else O := by
  intro t ht
  have hq : 0 < q := Nat.pos_of_ne_zero (NeZero.ne q)
  have hs : 0 < s := Nat.pos_of_ne_zero (by rintro rfl; simp at hN; omega)
  have hm : 0 < m := Nat.pos_of_ne_zero (by rintro rfl; simp at hN; omega)
  have hp : t / s / q < m := by
    rw [Nat.div_div_eq_div_mul]
    exact Nat.div_lt_of_lt_mul (by rw [show s * q * m = q * m * s by ring, ← hN]; exact ht)
  have hr : t % s < s := Nat.mod_lt _ hs
  have hlt : ∀ j : Fin q, t % s + s * (t / s / q + m * j.val) < N := fun j => by
    have h1 : t / s / q + m * j.val < m * q := by
      have := j.isLt
      calc t / s / q + m * j.val < m * (j.val + 1) := by rw [Nat.mul_succ]; omega
        _ ≤ m * q := Nat.mul_le_mul_left _ this
    calc t % s + s * (t / s / q + m * j.val) < s * (t / s / q + m * j.val + 1) := by rw [Nat.mul_succ]; omega
      _ ≤ s * (m * q) := Nat.mul_le_mul_left _ h1
      _ = N := by rw [hN]; ring
  unfold difPure
  by_cases hc : t < q * s
  · have e0 : t / s / q = 0 := by rw [Nat.div_div_eq_div_mul, Nat.mul_comm]; exact Nat.div_eq_of_lt hc
    rw [if_pos hc]
    rw [show (fun j : Fin q => v (t % s + s * (t / s / q + m * j.val))) = fun j => if j.val = 0 then g (t % s) else O from funext fun j => by
      rw [hv _ (hlt j), e0]
      by_cases hj : j.val = 0
      · rw [hj, if_pos rfl]
        simp [hr]
      · rw [if_neg hj, if_neg]
        have : s * 1 ≤ s * (m * j.val) := Nat.mul_le_mul_left _ (Nat.mul_pos hm (by omega))
        rw [Nat.zero_add]
        omega, e0]
    exact h1 _ (hg _) _
  · rw [if_neg hc]
    have e1 : 1 ≤ t / s / q := by
      rw [Nat.div_div_eq_div_mul, Nat.mul_comm]
      exact (Nat.one_le_div_iff (Nat.mul_pos hq hs)).2 (by omega)
    rw [show (fun j : Fin q => v (t % s + s * (t / s / q + m * j.val))) = fun _ => O from funext fun j => by
      rw [hv _ (hlt j), if_neg]
      have : s * 1 ≤ s * (t / s / q + m * j.val) := Nat.mul_le_mul_left _ (by omega)
      omega]
    exact h0 _ _

theorem dif_con_stage {e : ℕ} (hN : N = q * m * s) (h1 : ∀ p, Con O Rep e (G p)) (hg : ∀ t, Rep (g t)) (hv : ∀ t < N, v t = g (t % s)) :
    ∀ t < N, difPure q m s G v t = if t % (q * s) < s then dbl e (g (t % s)) else O := by
  intro t ht
  have hq : 0 < q := Nat.pos_of_ne_zero (NeZero.ne q)
  have hs : 0 < s := Nat.pos_of_ne_zero (by rintro rfl; simp at hN; omega)
  have hm : 0 < m := Nat.pos_of_ne_zero (by rintro rfl; simp at hN; omega)
  have hp : t / s / q < m := by
    rw [Nat.div_div_eq_div_mul]
    exact Nat.div_lt_of_lt_mul (by rw [show s * q * m = q * m * s by ring, ← hN]; exact ht)
  have hr : t % s < s := Nat.mod_lt _ hs
  have hlt : ∀ j : Fin q, t % s + s * (t / s / q + m * j.val) < N := fun j => by
    have h1 : t / s / q + m * j.val < m * q := by
      have := j.isLt
      calc t / s / q + m * j.val < m * (j.val + 1) := by rw [Nat.mul_succ]; omega
        _ ≤ m * q := Nat.mul_le_mul_left _ this
    calc t % s + s * (t / s / q + m * j.val) < s * (t / s / q + m * j.val + 1) := by rw [Nat.mul_succ]; omega
      _ ≤ s * (m * q) := Nat.mul_le_mul_left _ h1
      _ = N := by rw [hN]; ring
  unfold difPure
  rw [show (fun j : Fin q => v (t % s + s * (t / s / q + m * j.val))) = fun _ => g (t % s) from funext fun j => by
    rw [hv _ (hlt j), Nat.add_mul_mod_self_left, Nat.mod_eq_of_lt hr], h1 _ _ (hg _)]
  have hiff : (Fin.ofNat q (t / s)).val = 0 ↔ t % (q * s) < s := by
    show t / s % q = 0 ↔ _
    rw [Nat.mul_comm q s, Nat.mod_mul]
    constructor
    · intro h; rw [h]; simpa using hr
    · intro h
      by_contra hne
      have : s * 1 ≤ s * (t / s % q) := Nat.mul_le_mul_left _ (by omega)
      omega
  by_cases h : t % (q * s) < s
  · rw [if_pos (hiff.2 h), if_pos h]
  · rw [if_neg (mt hiff.1 h), if_neg h]

theorem dit_imp_stage (hN : N = q * m * s) (h1 : ∀ p, Imp O Rep (G p)) (hg : ∀ t, Rep (g t))
    (hv : ∀ t < N, v t = if t % (q * s) < s then g (t % (q * s)) else O) :
    ∀ t < N, ditPure q m s G v t = g (t % s) := by
  intro t ht
  have hq : 0 < q := Nat.pos_of_ne_zero (NeZero.ne q)
  have hs : 0 < s := Nat.pos_of_ne_zero (by rintro rfl; simp at hN; omega)
  have hm : 0 < m := Nat.pos_of_ne_zero (by rintro rfl; simp at hN; omega)
  have hr : t % s < s := Nat.mod_lt _ hs
  have hp : t / s % m < m := Nat.mod_lt _ hm
  unfold ditPure
  rw [show (fun j : Fin q => v (t % s + s * (q * (t / s % m) + j.val))) = fun j => if j.val = 0 then g (t % s) else O from ?_]
  · exact h1 _ _ (hg _) _
  · funext j
    have hp : t / s % m < m := Nat.mod_lt _ hm
    have hlt : t % s + s * (q * (t / s % m) + j.val) < N := by
      have := j.isLt
      calc t % s + s * (q * (t / s % m) + j.val) < s * (q * (t / s % m) + j.val + 1) := by rw [Nat.mul_succ]; omega
        _ ≤ s * (q * (t / s % m + 1)) := Nat.mul_le_mul_left _ (by rw [Nat.mul_succ]; omega)
        _ ≤ s * (q * m) := Nat.mul_le_mul_left _ (Nat.mul_le_mul_left _ hp)
        _ = N := by rw [hN]; ring
    rw [hv _ hlt]
    have hj := j.isLt
    have hb : t % s + s * j.val < q * s := by
      calc t % s + s * j.val < s * (j.val + 1) := by rw [Nat.mul_succ]; omega
        _ ≤ s * q := Nat.mul_le_mul_left _ hj
        _ = q * s := Nat.mul_comm _ _
    have e : (t % s + s * (q * (t / s % m) + j.val)) % (q * s) = t % s + s * j.val := by
      rw [show t % s + s * (q * (t / s % m) + j.val) = t % s + s * j.val + q * s * (t / s % m) by ring, Nat.add_mul_mod_self_left, Nat.mod_eq_of_lt hb]
    rw [e]
    by_cases h0 : j.val = 0
    · rw [h0]; simp [hr]
    · rw [if_neg h0, if_neg]
      have : s * 1 ≤ s * j.val := Nat.mul_le_mul_left _ (by omega)
      omega

theorem dit_con_stage {e : ℕ} (hN : N = q * m * s) (h0 : ∀ p k, G p (fun _ => O) k = O) (h1 : Con O Rep e (G 0)) (hg : ∀ t, Rep (g t))
    (hv : ∀ t < N, v t = if t < q * s then g (t % s) else O) :
    ∀ t < N, ditPure q m s G v t = if t < s then dbl e (g t) else O := by
  intro t ht
  have hq : 0 < q := Nat.pos_of_ne_zero (NeZero.ne q)
  have hs : 0 < s := Nat.pos_of_ne_zero (by rintro rfl; simp at hN; omega)
  have hm : 0 < m := Nat.pos_of_ne_zero (by rintro rfl; simp at hN; omega)
  have hr : t % s < s := Nat.mod_lt _ hs
  have hp : t / s % m < m := Nat.mod_lt _ hm
  have hk : t / s / m < q := by
    rw [Nat.div_div_eq_div_mul]
    exact Nat.div_lt_of_lt_mul (by rw [show s * m * q = q * m * s by ring, ← hN]; exact ht)
  have hlt : ∀ j : Fin q, t % s + s * (q * (t / s % m) + j.val) < N := fun j => by
    have := j.isLt
    calc t % s + s * (q * (t / s % m) + j.val) < s * (q * (t / s % m) + j.val + 1) := by rw [Nat.mul_succ]; omega
      _ ≤ s * (q * (t / s % m + 1)) := Nat.mul_le_mul_left _ (by rw [Nat.mul_succ]; omega)
      _ ≤ s * (q * m) := Nat.mul_le_mul_left _ (Nat.mul_le_mul_left _ hp)
      _ = N := by rw [hN]; ring
  unfold ditPure
  by_cases e0 : t / s % m = 0
  · rw [show (fun j : Fin q => v (t % s + s * (q * (t / s % m) + j.val))) = fun _ => g (t % s) from funext fun j => by
      rw [hv _ (hlt j), e0, Nat.mul_zero, Nat.zero_add, if_pos, Nat.add_mul_mod_self_left, Nat.mod_eq_of_lt hr]
      have hj := j.isLt
      calc t % s + s * j.val < s * (j.val + 1) := by rw [Nat.mul_succ]; omega
        _ ≤ s * q := Nat.mul_le_mul_left _ hj
        _ = q * s := Nat.mul_comm _ _, e0, h1 _ (hg _)]
    have hiff : (Fin.ofNat q (t / s / m)).val = 0 ↔ t < s := by
      show t / s / m % q = 0 ↔ _
      rw [Nat.mod_eq_of_lt hk]
      constructor
      · intro h
        have : t / s = 0 := by
          have := Nat.div_add_mod (t / s) m
          rw [h, e0] at this
          omega
        exact (Nat.div_eq_zero_iff_lt hs).1 this
      · intro h
        rw [Nat.div_eq_of_lt h, Nat.zero_div]
    by_cases h : t < s
    · rw [if_pos (hiff.2 h), if_pos h, Nat.mod_eq_of_lt h]
    · rw [if_neg (mt hiff.1 h), if_neg h]
  · rw [show (fun j : Fin q => v (t % s + s * (q * (t / s % m) + j.val))) = fun _ => O from funext fun j => by
      rw [hv _ (hlt j), if_neg]
      have : s * (q * 1) ≤ s * (q * (t / s % m)) := Nat.mul_le_mul_left _ (Nat.mul_le_mul_left _ (by omega))
      rw [Nat.mul_one] at this
      rw [Nat.mul_add, Nat.mul_comm q s]
      omega, h0, if_neg]
    intro h
    rw [Nat.div_eq_of_lt h, Nat.zero_mod] at e0
    exact e0 rfl

end stages

/-! ### Stockham transforms -/

section stock
variable {s n : ℕ}

theorem end_imp (L : FlatLaws O I Rep) (hn : n = 2 ∨ n = 4 ∨ n = 8 ∨ n = 16) (hN : N = n * s) (hg : ∀ t, Rep (g t))
    (hv : ∀ t < N, v t = if t < s then g t else O) : ∀ t < N, endPure inv .scale_1 n s v t = g (t % s) := by
  intro t ht
  have key : ∀ {q : ℕ} [NeZero q] {B : BF q}, Imp O Rep (B.fn (V := C)) → N = q * s →
      difPure q 1 s (endG B (q * s) .scale_1) v t = g (t % s) := fun {q} _ {B} hB hN => by
    have := dif_imp_stage (q := q) (m := 1) (s := s) (G := endG B (q * s) .scale_1) (by rw [hN]; ring) (fun p k => hB.zero L.repO k) hB hg hv t ht
    rwa [if_pos (by omega)] at this
  unfold endPure
  rcases hn with rfl | rfl | rfl | rfl
  · exact key L.imp2 hN
  · exact key (L.imp4 _) hN
  · exact key (L.imp8 _) hN
  · exact key (L.imp16 _) hN

theorem end_con (L : FlatLaws O I Rep) {l : ℕ} (hn : n = 2 ^ l) (h1 : 1 ≤ l) (h4 : l ≤ 4) (hN : N = n * s) (hg : ∀ t, Rep (g t))
    (hv : ∀ t < N, v t = g (t % s)) : ∀ t < N, endPure inv .scale_1 n s v t = if t < s then dbl l (g t) else O := by
  intro t ht
  have key : ∀ {q : ℕ} [NeZero q] {B : BF q}, Con O Rep l (B.fn (V := C)) → N = q * s →
      difPure q 1 s (endG B (q * s) .scale_1) v t = if t < s then dbl l (g t) else O := fun {q} _ {B} hB hN => by
    rw [dif_con_stage (q := q) (m := 1) (s := s) (G := endG B (q * s) .scale_1) (by rw [hN]; ring) (fun p => hB) hg hv t ht,
      Nat.mod_eq_of_lt (by omega : t < q * s)]
    by_cases h : t < s
    · rw [if_pos h, if_pos h, Nat.mod_eq_of_lt h]
    · rw [if_neg h, if_neg h]
  unfold endPure
  obtain rfl | rfl | rfl | rfl : l = 1 ∨ l = 2 ∨ l = 3 ∨ l = 4 := by omega
  all_goals norm_num at hn; subst hn
  · exact key L.con2 hN
  · exact key (L.con4 _) hN
  · exact key (L.con8 _) hN
  · exact key (L.con16 _) hN

section recs
variable {q e : ℕ} [NeZero q] {B : BF q} {T : ℕ → Fin (q - 1) → C}

theorem difRec_imp (L : FlatLaws O I Rep) (hB : Imp O Rep (B.fn (V := C))) (hT : ∀ k, T 0 k = I) (hq : q = 2 ^ e) (e2 : 2 ≤ e) (e4 : e ≤ 4) (l : ℕ) :
    ∀ {n s : ℕ} {v g : ℕ → C}, n = 2 ^ l → 1 ≤ l → N = n * s → (∀ t, Rep (g t)) → (∀ t < N, v t = if t < s then g t else O) →
      ∀ t < N, difRec q B inv T .scale_1 n s v t = g (t % s) := by
  induction l using Nat.strong_induction_on with
  | _ l ih =>
    intro n s v g hn hl hN hg hv t ht
    have hr := LinLaws.le16 hq e2 e4
    rw [difRec.eq_def]
    by_cases hc : n ≤ q ∨ q < 2
    · rw [dif_pos hc]
      have hnr : n ≤ 16 := by omega
      exact L.end_imp (by rw [hn] at hnr ⊢; exact pow_le_16 hl hnr) hN hg hv t ht
    · rw [dif_neg hc]
      obtain ⟨hel, hd, hN1, hN2⟩ := LinLaws.split hq hn hN (by omega)
      have := ih (l - e) (by omega) (g := fun t => g (t % s)) hd (by omega) hN2 (fun _ => hg _)
        (dif_imp_stage (G := difG B T s) hN1 (fun p k => L.dif_zero hB _ k) (L.dif_imp hB (T := T (s * 0)) (by simpa using hT)) hg hv) t ht
      rw [this]
      exact congrArg g (Nat.mod_mod_of_dvd _ ⟨q, by ring⟩)

theorem difRec_con (L : FlatLaws O I Rep) (hB : Con O Rep e (B.fn (V := C))) (hq : q = 2 ^ e) (e2 : 2 ≤ e) (e4 : e ≤ 4) (l : ℕ) :
    ∀ {n s : ℕ} {v g : ℕ → C}, n = 2 ^ l → 1 ≤ l → N = n * s → (∀ t, Rep (g t)) → (∀ t < N, v t = g (t % s)) →
      ∀ t < N, difRec q B inv T .scale_1 n s v t = if t < s then dbl l (g t) else O := by
  induction l using Nat.strong_induction_on with
  | _ l ih =>
    intro n s v g hn hl hN hg hv t ht
    have hr := LinLaws.le16 hq e2 e4
    rw [difRec.eq_def]
    by_cases hc : n ≤ q ∨ q < 2
    · rw [dif_pos hc]
      have hnr : n ≤ 16 := by omega
      refine L.end_con hn hl ?_ hN hg hv t ht
      exact (Nat.pow_le_pow_iff_right (by omega : 1 < 2)).1 (by omega : 2 ^ l ≤ 2 ^ 4)
    · rw [dif_neg hc]
      obtain ⟨hel, hd, hN1, hN2⟩ := LinLaws.split hq hn hN (by omega)
      have hs : 0 < s := Nat.pos_of_ne_zero (by rintro rfl; omega)
      have := ih (l - e) (by omega) (v := difPure q (n / q) s (difG B T s) v) (g := fun t => if t < s then dbl e (g t) else O) hd (by omega) hN2
        (fun t => by split; exacts [L.dbl_rep (hg _) _, L.repO]) (fun t ht => by
          rw [dif_con_stage (G := difG B T s) hN1 (fun p => L.dif_con hB) hg hv t ht]
          by_cases h : t % (q * s) < s
          · rw [if_pos h, if_pos h]
            rw [← Nat.mod_mod_of_dvd t ⟨q, Nat.mul_comm q s⟩, Nat.mod_eq_of_lt h]
          · rw [if_neg h, if_neg h]) t ht
      rw [this]
      have hsq : s ≤ q * s := Nat.le_mul_of_pos_left _ (Nat.pos_of_ne_zero (NeZero.ne q))
      by_cases h : t < s
      · rw [if_pos (by omega), if_pos h, if_pos h, ← dbl_add]
        congr 1; omega
      · rw [if_neg h, if_neg h, L.dbl_O, ite_self]

theorem ditRec_imp (L : FlatLaws O I Rep) (hB : Imp O Rep (B.fn (V := C))) (hq : q = 2 ^ e) (e2 : 2 ≤ e) (e4 : e ≤ 4) (l : ℕ) :
    ∀ {n s : ℕ} {v g : ℕ → C}, n = 2 ^ l → 1 ≤ l → N = n * s → (∀ t, Rep (g t)) → (∀ t < N, v t = if t < s then g t else O) →
      ∀ t < N, ditRec q B inv T .scale_1 n s v t = g (t % s) := by
  induction l using Nat.strong_induction_on with
  | _ l ih =>
    intro n s v g hn hl hN hg hv t ht
    have hr := LinLaws.le16 hq e2 e4
    rw [ditRec.eq_def]
    by_cases hc : n ≤ q ∨ q < 2
    · rw [dif_pos hc]
      have hnr : n ≤ 16 := by omega
      exact L.end_imp (by rw [hn] at hnr ⊢; exact pow_le_16 hl hnr) hN hg hv t ht
    · rw [dif_neg hc]
      obtain ⟨hel, hd, hN1, hN2⟩ := LinLaws.split hq hn hN (by omega)
      have hsq : s ≤ q * s := Nat.le_mul_of_pos_left _ (Nat.pos_of_ne_zero (NeZero.ne q))
      refine dit_imp_stage hN1 (fun p => L.dit_imp hB) hg
        (ih (l - e) (by omega) (g := fun t => if t < s then g t else O) hd (by omega) hN2
          (fun t => by split; exacts [hg _, L.repO]) (fun t ht => ?_)) t ht
      rw [hv t ht]
      by_cases h : t < s
      · rw [if_pos h, if_pos (by omega)]
      · rw [if_neg h, ite_self]

theorem ditRec_con (L : FlatLaws O I Rep) (hI : Imp O Rep (B.fn (V := C))) (hB : Con O Rep e (B.fn (V := C))) (hT : ∀ k, T 0 k = I) (hq : q = 2 ^ e) (e2 : 2 ≤ e) (e4 : e ≤ 4) (l : ℕ) :
    ∀ {n s : ℕ} {v g : ℕ → C}, n = 2 ^ l → 1 ≤ l → N = n * s → (∀ t, Rep (g t)) → (∀ t < N, v t = g (t % s)) →
      ∀ t < N, ditRec q B inv T .scale_1 n s v t = if t < s then dbl l (g t) else O := by
  induction l using Nat.strong_induction_on with
  | _ l ih =>
    intro n s v g hn hl hN hg hv t ht
    have hr := LinLaws.le16 hq e2 e4
    rw [ditRec.eq_def]
    by_cases hc : n ≤ q ∨ q < 2
    · rw [dif_pos hc]
      have hnr : n ≤ 16 := by omega
      refine L.end_con hn hl ?_ hN hg hv t ht
      exact (Nat.pow_le_pow_iff_right (by omega : 1 < 2)).1 (by omega : 2 ^ l ≤ 2 ^ 4)
    · rw [dif_neg hc]
      obtain ⟨hel, hd, hN1, hN2⟩ := LinLaws.split hq hn hN (by omega)
      rw [dit_con_stage (e := e) hN1 (fun p k => L.dit_zero hI k) (L.dit_con hB (T := T (s * 0)) (by simpa using hT)) (g := fun t => dbl (l - e) (g t))
        (fun _ => L.dbl_rep (hg _) _)
        (ih (l - e) (by omega) (g := fun t => g (t % s)) hd (by omega) hN2 (fun _ => hg _) (fun t ht => by
          rw [hv t ht]
          exact congrArg g (Nat.mod_mod_of_dvd _ ⟨q, by ring⟩).symm)) t ht, ← dbl_add]
      rw [show e + (l - e) = l by omega]

end recs

theorem wpowI (L : FlatLaws O I Rep) (k : ℕ) : wpow I k = I := by
  induction k using Nat.strong_induction_on with
  | _ k ih =>
    rw [wpow.eq_def]
    by_cases h1 : k ≤ 1
    · rw [dif_pos h1]
    · rw [dif_neg h1]
      split
      · rw [ih _ (by omega), L.Imul L.repI]
      · rw [ih _ (by omega), ih _ (by omega), L.Imul L.repI]

theorem cjI (L : FlatLaws O I Rep) (inv : Bool) : cj inv I = I := by
  cases inv
  · rfl
  · exact L.cnj

theorem tw0 (L : FlatLaws O I Rep) (path : Path) (q N : ℕ) (inv : Bool) (k : Fin (q - 1)) : stockhamTw C path q N inv 0 k = I := by
  cases path
  · show cj inv (CArith.expj (fmul _ (fofNat 0))) = I
    rw [L.exp0, L.cjI]
  · show wpow (cj inv (CArith.expj (fmul _ (fofNat 0)))) _ = I
    rw [L.exp0, L.cjI, L.wpowI]

theorem stock_imp (L : FlatLaws O I Rep) {th : ℕ} {dit : Bool} {rad : Radix} {l : ℕ} {c : C} (hN : N = 2 ^ l) (hl : 1 ≤ l) (hc : Rep c)
    (hv : ∀ t < N, v t = if t < 1 then c else O) : ∀ t < N, stockOut C th dit rad inv .scale_1 N v t = c := by
  have h := fun (_ : ℕ) => hc
  cases dit <;> cases rad
  · exact L.difRec_imp (e := 2) (L.imp4 _) (L.tw0 _ _ _ _) (by norm_num) (by omega) (by omega) l (g := fun _ => c) hN hl (by omega) h hv
  · exact L.difRec_imp (e := 3) (L.imp8 _) (L.tw0 _ _ _ _) (by norm_num) (by omega) (by omega) l (g := fun _ => c) hN hl (by omega) h hv
  · exact L.difRec_imp (e := 4) (L.imp16 _) (L.tw0 _ _ _ _) (by norm_num) (by omega) (by omega) l (g := fun _ => c) hN hl (by omega) h hv
  · exact L.ditRec_imp (e := 2) (L.imp4 _) (by norm_num) (by omega) (by omega) l (g := fun _ => c) hN hl (by omega) h hv
  · exact L.ditRec_imp (e := 3) (L.imp8 _) (by norm_num) (by omega) (by omega) l (g := fun _ => c) hN hl (by omega) h hv
  · exact L.ditRec_imp (e := 4) (L.imp16 _) (by norm_num) (by omega) (by omega) l (g := fun _ => c) hN hl (by omega) h hv

theorem stock_con (L : FlatLaws O I Rep) {th : ℕ} {dit : Bool} {rad : Radix} {l : ℕ} {c : C} (hN : N = 2 ^ l) (hl : 1 ≤ l) (hc : Rep c)
    (hv : ∀ t < N, v t = c) : ∀ t < N, stockOut C th dit rad inv .scale_1 N v t = if t < 1 then dbl l c else O := by
  have h := fun (_ : ℕ) => hc
  cases dit <;> cases rad
  · exact L.difRec_con (e := 2) (L.con4 _) (by norm_num) (by omega) (by omega) l (g := fun _ => c) hN hl (by omega) h hv
  · exact L.difRec_con (e := 3) (L.con8 _) (by norm_num) (by omega) (by omega) l (g := fun _ => c) hN hl (by omega) h hv
  · exact L.difRec_con (e := 4) (L.con16 _) (by norm_num) (by omega) (by omega) l (g := fun _ => c) hN hl (by omega) h hv
  · exact L.ditRec_con (e := 2) (L.imp4 _) (L.con4 _) (L.tw0 _ _ _ _) (by norm_num) (by omega) (by omega) l (g := fun _ => c) hN hl (by omega) h hv
  · exact L.ditRec_con (e := 3) (L.imp8 _) (L.con8 _) (L.tw0 _ _ _ _) (by norm_num) (by omega) (by omega) l (g := fun _ => c) hN hl (by omega) h hv
  · exact L.ditRec_con (e := 4) (L.imp16 _) (L.con16 _) (L.tw0 _ _ _ _) (by norm_num) (by omega) (by omega) l (g := fun _ => c) hN hl (by omega) h hv

end stock

/-! ### six-step and eight-step -/

section six
variable {n l : ℕ} {c : C}
open ApLaws (mod_lt_of rc_lt)

theorem row_imp (L : FlatLaws O I Rep) (hn : n = 2 ^ l) (hl : 1 ≤ l) (hc : Rep c) (hv : ∀ t < n, v t = if t < 1 then c else O) :
    ∀ t < n, difRec 8 (bf8 inv) inv (stockhamTw C .serial 8 n inv) .scale_1 n 1 v t = c :=
  L.difRec_imp (e := 3) (L.imp8 _) (L.tw0 _ _ _ _) (by norm_num) (by omega) (by omega) l (g := fun _ => c) hn hl (by omega) (fun _ => hc) hv

theorem row_con (L : FlatLaws O I Rep) (hn : n = 2 ^ l) (hl : 1 ≤ l) (hc : Rep c) (hv : ∀ t < n, v t = c) :
    ∀ t < n, difRec 8 (bf8 inv) inv (stockhamTw C .serial 8 n inv) .scale_1 n 1 v t = if t < 1 then dbl l c else O :=
  L.difRec_con (e := 3) (L.con8 _) (by norm_num) (by omega) (by omega) l (g := fun _ => c) hn hl (by omega) (fun _ => hc) hv

/-- data that only depends on the row number, one row at a time -/
theorem rows_con (L : FlatLaws O I Rep) (hn : n = 2 ^ l) (hl : 1 ≤ l) {g : ℕ → C} (hg : ∀ r, Rep (g r)) (hv : ∀ t < n * n, v t = g (t / n)) :
    ∀ t < n * n, sixRowsV inv n v t = if t % n < 1 then dbl l (g (t / n)) else O := by
  intro t ht
  have h0 : 0 < n := by rw [hn]; positivity
  exact L.row_con hn hl (hg _) (fun j hj => by
    rw [hv _ (by rw [Nat.add_comm]; exact rc_lt hj (Nat.div_lt_of_lt_mul ht)), Nat.add_comm, Nat.add_mul_div_right _ _ h0, Nat.div_eq_of_lt hj, Nat.zero_add])
    (t % n) (mod_lt_of ht)

theorem rows_imp (L : FlatLaws O I Rep) (hn : n = 2 ^ l) (hl : 1 ≤ l) {g : ℕ → C} (hg : ∀ r, Rep (g r))
    (hv : ∀ t < n * n, v t = if t % n < 1 then g (t / n) else O) : ∀ t < n * n, sixRowsV inv n v t = g (t / n) := by
  intro t ht
  have h0 : 0 < n := by rw [hn]; positivity
  exact L.row_imp hn hl (hg _) (fun j hj => by
    rw [hv _ (by rw [Nat.add_comm]; exact rc_lt hj (Nat.div_lt_of_lt_mul ht)), Nat.add_comm, Nat.add_mul_div_right _ _ h0, Nat.div_eq_of_lt hj, Nat.zero_add,
      Nat.add_mul_mod_self_right, Nat.mod_eq_of_lt hj]) (t % n) (mod_lt_of ht)

theorem sixTw_row (L : FlatLaws O I Rep) (r : ℕ) : sixTw C n 0 r = I := by
  unfold sixTw
  rw [if_neg (by omega)]
  exact L.exp0 _

theorem sixTw_col (L : FlatLaws O I Rep) (r : ℕ) : sixTw C n r 0 = I := by
  unfold sixTw
  split
  · exact L.exp0 _
  · exact L.exp00 _ _

theorem tr_div {t : ℕ} (h : t < n * n) : (t / n + t % n * n) / n = t % n := by
  have h0 : 0 < n := Nat.pos_of_ne_zero (by rintro rfl; omega)
  rw [Nat.add_mul_div_right _ _ h0, Nat.div_eq_of_lt (Nat.div_lt_of_lt_mul h), Nat.zero_add]

theorem tr_mod {t : ℕ} (h : t < n * n) : (t / n + t % n * n) % n = t / n := by
  rw [Nat.add_mul_mod_self_right, Nat.mod_eq_of_lt (Nat.div_lt_of_lt_mul h)]

theorem six_imp (L : FlatLaws O I Rep) (hn : n = 2 ^ l) (hl : 1 ≤ l) (hc : Rep c) (hv : ∀ t < n * n, v t = if t < 1 then c else O) :
    ∀ t < n * n, sixPure inv .scale_1 n v t = c := by
  have h0 : 0 < n := by rw [hn]; positivity
  have hb : ∀ t < n * n, t / n + t % n * n < n * n := fun t ht => rc_lt (Nat.div_lt_of_lt_mul ht) (mod_lt_of ht)
  have a1 : ∀ t < n * n, transpV n v t = if t % n < 1 then (fun r => if r = 0 then c else O) (t / n) else O := fun t ht => by
    show v (t / n + t % n * n) = _
    rw [hv _ (hb t ht)]
    have e := Nat.div_add_mod t n
    by_cases h1 : t % n < 1
    · rw [if_pos h1]
      have h2 : t % n = 0 := by omega
      rw [h2, Nat.zero_mul, Nat.add_zero]
      by_cases h3 : t / n = 0
      · simp [h3]
      · simp only [h3, if_false]
        rw [if_neg fun h => h3 (Nat.lt_one_iff.1 h)]
    · rw [if_neg h1, if_neg]
      have : 1 * 1 ≤ t % n * n := Nat.mul_le_mul (by omega) h0
      generalize t / n = a
      omega
  have a2 := L.rows_imp (inv := inv) hn hl (g := fun r => if r = 0 then c else O) (fun r => by split; exacts [hc, L.repO]) a1
  have a3 : ∀ t < n * n, sixMultV inv .scale_1 n (sixRowsV inv n (transpV n v)) t = if t % n < 1 then c else O := fun t ht => by
    show mulpz (cj inv (sixTw C n (t % n) (t / n))) (sixRowsV inv n (transpV n v) (t / n + t % n * n)) = _
    rw [a2 _ (hb t ht), tr_div ht]
    by_cases h1 : t % n < 1
    · have h2 : t % n = 0 := by omega
      rw [if_pos h1, if_pos h2, h2, L.sixTw_row, L.cjI, L.Imul hc]
    · rw [if_neg h1, if_neg (by omega), L.mulO]
  have a4 := L.rows_imp (inv := inv) hn hl (g := fun _ => c) (fun _ => hc) a3
  exact fun t ht => a4 _ (hb t ht)

theorem six_con (L : FlatLaws O I Rep) (hn : n = 2 ^ l) (hl : 1 ≤ l) (hc : Rep c) (hv : ∀ t < n * n, v t = c) :
    ∀ t < n * n, sixPure inv .scale_1 n v t = if t < 1 then dbl (l + l) c else O := by
  have h0 : 0 < n := by rw [hn]; positivity
  have hb : ∀ t < n * n, t / n + t % n * n < n * n := fun t ht => rc_lt (Nat.div_lt_of_lt_mul ht) (mod_lt_of ht)
  have a2 := L.rows_con (inv := inv) (v := transpV n v) hn hl (g := fun _ => c) (fun _ => hc) (fun t ht => hv _ (hb t ht))
  have a3 : ∀ t < n * n, sixMultV inv .scale_1 n (sixRowsV inv n (transpV n v)) t = (fun r => if r = 0 then dbl l c else O) (t / n) := fun t ht => by
    show mulpz (cj inv (sixTw C n (t % n) (t / n))) (sixRowsV inv n (transpV n v) (t / n + t % n * n)) = _
    rw [a2 _ (hb t ht), tr_mod ht]
    dsimp only
    by_cases h1 : t / n < 1
    · have h2 : t / n = 0 := Nat.lt_one_iff.1 h1
      rw [if_pos h1, if_pos h2, h2, L.sixTw_col, L.cjI, L.Imul (L.dbl_rep hc _)]
    · rw [if_neg h1, if_neg fun h => h1 (Nat.lt_one_iff.2 h), L.mulO]
  have a4 := L.rows_con (inv := inv) hn hl (g := fun r => if r = 0 then dbl l c else O) (fun r => by split; exacts [L.dbl_rep hc _, L.repO]) a3
  intro t ht
  show sixRowsV inv n (sixMultV inv .scale_1 n (sixRowsV inv n (transpV n v))) (t / n + t % n * n) = _
  rw [a4 _ (hb t ht), tr_mod ht, tr_div ht]
  have e := Nat.div_add_mod t n
  by_cases h : t < 1
  · obtain rfl : t = 0 := by omega
    simp [dbl_add]
  · rw [if_neg h]
    by_cases h1 : t / n < 1
    · have h2 : t / n = 0 := Nat.lt_one_iff.1 h1
      rw [h2, Nat.mul_zero] at e
      rw [if_pos h1, if_neg (by omega), L.dbl_O]
    · rw [if_neg h1]

theorem eight_imp (L : FlatLaws O I Rep) (hn : n = 2 ^ l) (hl : 1 ≤ l) (hc : Rep c) (hv : ∀ t < 8 * (n * n), v t = if t < 1 then c else O) :
    ∀ t < 8 * (n * n), eightPure inv .scale_1 n v t = c := by
  have h0 : 0 < n := by rw [hn]; positivity
  have h1 : 0 < n * n := Nat.mul_pos h0 h0
  generalize hM : n * n = M at *
  have a1 : ∀ t < 8 * M, eightPreV inv .scale_1 M v t = if t % M < 1 then c else O := fun t ht => by
    show difOut (bf8 inv) (fun j => v (t % M + M * j.val)) _ _ = _
    have hr : t % M < M := Nat.mod_lt _ h1
    have hj : ∀ j : Fin 8, t % M + M * j.val < 8 * M := fun j => by
      rw [Nat.mul_comm 8 M]; exact idx_lt hr j.isLt
    by_cases h : t % M < 1
    · have h2 : t % M = 0 := by omega
      rw [if_pos h, show (fun j : Fin 8 => v (t % M + M * j.val)) = fun j => if j.val = 0 then c else O from funext fun j => by
        rw [hv _ (hj j), h2, Nat.zero_add]
        by_cases h3 : j.val = 0
        · simp [h3]
        · rw [if_neg h3, if_neg]
          have := Nat.mul_le_mul h1 (show 1 ≤ j.val by omega)
          omega]
      refine L.dif_imp (L.imp8 inv) (fun k => ?_) c hc _
      rw [h2, show wr1Val C (8 * M) 0 = I from L.exp0 _, L.cjI, L.wpowI]
    · rw [if_neg h, show (fun j : Fin 8 => v (t % M + M * j.val)) = fun _ => O from funext fun j => by
        rw [hv _ (hj j), if_neg (by omega)]]
      exact L.dif_zero (L.imp8 inv) _ _
  intro t ht
  show sixPure inv .scale_1 n (fun j => eightPreV inv .scale_1 (n * n) v ((t / 8 + n * n * (t % 8)) / (n * n) * (n * n) + j)) ((t / 8 + n * n * (t % 8)) % (n * n)) = c
  rw [hM]
  have hq : t / 8 < M := by omega
  rw [idx_div hq, idx_mod hq]
  refine L.six_imp hn hl hc (fun j hj => ?_) _ (by omega)
  rw [hM] at hj
  rw [a1 _ (by rw [Nat.add_comm]; exact rc_lt hj (by omega)), Nat.add_comm, Nat.add_mul_mod_self_right, Nat.mod_eq_of_lt hj]

theorem eight_con (L : FlatLaws O I Rep) (hn : n = 2 ^ l) (hl : 1 ≤ l) (hc : Rep c) (hv : ∀ t < 8 * (n * n), v t = c) :
    ∀ t < 8 * (n * n), eightPure inv .scale_1 n v t = if t < 1 then dbl (l + l + 3) c else O := by
  have h0 : 0 < n := by rw [hn]; positivity
  have h1 : 0 < n * n := Nat.mul_pos h0 h0
  generalize hM : n * n = M at *
  have a1 : ∀ t < 8 * M, eightPreV inv .scale_1 M v t = if t / M = 0 then dbl 3 c else O := fun t ht => by
    show difOut (bf8 inv) (fun j => v (t % M + M * j.val)) _ _ = _
    have hr : t % M < M := Nat.mod_lt _ h1
    have hj : ∀ j : Fin 8, t % M + M * j.val < 8 * M := fun j => by
      rw [Nat.mul_comm 8 M]; exact idx_lt hr j.isLt
    rw [show (fun j : Fin 8 => v (t % M + M * j.val)) = fun _ => c from funext fun j => hv _ (hj j)]
    have := L.dif_con (T := fun k => wpow (cj inv (wr1Val C (8 * M) (t % M))) (k.val + 1)) (L.con8 inv) c hc (Fin.ofNat 8 (t / M))
    rw [show (Fin.ofNat 8 (t / M)).val = t / M from Nat.mod_eq_of_lt (Nat.div_lt_of_lt_mul (by omega))] at this
    exact this
  intro t ht
  show sixPure inv .scale_1 n (fun j => eightPreV inv .scale_1 (n * n) v ((t / 8 + n * n * (t % 8)) / (n * n) * (n * n) + j)) ((t / 8 + n * n * (t % 8)) % (n * n)) = _
  rw [hM]
  have hq : t / 8 < M := by omega
  rw [idx_div hq, idx_mod hq]
  have key : ∀ d, Rep d → (∀ j < M, eightPreV inv .scale_1 M v (t % 8 * M + j) = d) →
      sixPure inv .scale_1 n (fun j => eightPreV inv .scale_1 M v (t % 8 * M + j)) (t / 8) = if t / 8 < 1 then dbl (l + l) d else O :=
    fun d hd h => L.six_con hn hl hd (fun j hj => h j (by omega)) _ (by omega)
  have a2 : ∀ j < M, eightPreV inv .scale_1 M v (t % 8 * M + j) = if t % 8 = 0 then dbl 3 c else O := fun j hj => by
    rw [a1 _ (by rw [Nat.add_comm]; exact rc_lt hj (by omega)), Nat.add_comm, Nat.add_mul_div_right _ _ h1, Nat.div_eq_of_lt hj, Nat.zero_add]
  rw [key _ (by split; exacts [L.dbl_rep hc _, L.repO]) a2]
  by_cases h : t < 1
  · obtain rfl : t = 0 := by omega
    simp [dbl_add]
  · rw [if_neg h]
    by_cases h8 : t / 8 < 1
    · rw [if_pos h8, if_neg (by omega), L.dbl_O]
    · rw [if_neg h8]

theorem sixOut_imp (L : FlatLaws O I Rep) (hN : N = 2 ^ l) (hl : 1 ≤ l) (hc : Rep c) (hv : ∀ t < N, v t = if t < 1 then c else O) :
    ∀ t < N, sixOut inv .scale_1 l v t = c := by
  intro t ht
  unfold sixOut
  by_cases h5 : l ≤ 5
  · rw [if_pos h5]
    subst hN
    exact L.row_imp rfl hl hc hv t ht
  · rw [if_neg h5]
    by_cases h2 : l % 2 = 1
    · rw [if_pos h2]
      have e := pow_split_odd h5 h2
      rw [hN, e] at hv ht
      exact L.eight_imp rfl (by omega) hc hv t ht
    · rw [if_neg h2]
      rw [hN, pow_split_even h2] at hv ht
      exact L.six_imp rfl (by omega) hc hv t ht

theorem sixOut_con (L : FlatLaws O I Rep) (hN : N = 2 ^ l) (hl : 1 ≤ l) (hc : Rep c) (hv : ∀ t < N, v t = c) :
    ∀ t < N, sixOut inv .scale_1 l v t = if t < 1 then dbl l c else O := by
  intro t ht
  unfold sixOut
  by_cases h5 : l ≤ 5
  · rw [if_pos h5]
    subst hN
    exact L.row_con rfl hl hc hv t ht
  · rw [if_neg h5]
    by_cases h2 : l % 2 = 1
    · rw [if_pos h2]
      have e := pow_split_odd h5 h2
      rw [hN, e] at hv ht
      rw [L.eight_con (l := l / 2 - 1) rfl (by omega) hc hv t ht, show l / 2 - 1 + (l / 2 - 1) + 3 = l by omega]
    · rw [if_neg h2]
      rw [hN, pow_split_even h2] at hv ht
      rw [L.six_con (l := l / 2) rfl (by omega) hc hv t ht, show l / 2 + l / 2 = l by omega]

end six

/-! ### mixed radix, forward -/

section mixed
variable {wv : ℕ → C} {c : C}

/-- zero in, zero out -/
def ZeroT (O : C) {q b : ℕ} (S : BFT q b) : Prop := ∀ T k, S.fn (V := C) (fun _ => O) T k = O

theorem zero_dif (L : FlatLaws O I Rep) {q b : ℕ} {S : BFT q b} {B : BF q} (hB : Imp O Rep (B.fn (V := C)))
    (hS : ∀ X T, ∃ T', S.fn (V := C) X T = difOut B X T') : ZeroT O S := fun T k => by
  obtain ⟨T', h⟩ := hS (fun _ => O) T
  rw [h]; exact L.dif_zero hB _ k

theorem zero_sum5 (L : FlatLaws O I Rep) (w : C) (k : Fin 5) : sum5 (fun _ => O) w k = O := by
  fin_cases k <;> simp [sum5, L.mulO, L.addO L.repO]

theorem zero_sum3 (L : FlatLaws O I Rep) (w : C) (k : Fin 3) : sum3 (fun _ => O) w k = O := by
  fin_cases k <;> simp [sum3, L.mulO, L.addO L.repO]

theorem imp_sum5 (L : FlatLaws O I Rep) (w : C) : Imp O Rep (sum5 · w) := by
  intro c hc k
  fin_cases k <;> simp [sum5, L.mulO, L.addO hc]

theorem imp_sum3 (L : FlatLaws O I Rep) (w : C) : Imp O Rep (sum3 · w) := by
  intro c hc k
  fin_cases k <;> simp [sum3, L.mulO, L.addO hc]

theorem zero_mix5 (L : FlatLaws O I Rep) : ZeroT O mix5 := by
  intro T k
  fin_cases k <;> simp [mix5, L.zero_sum5, L.Omul]

theorem zero_mix3 (L : FlatLaws O I Rep) : ZeroT O mix3 := by
  intro T k
  fin_cases k <;> simp [mix3, L.zero_sum3, L.Omul]

theorem imp_mix5 (L : FlatLaws O I Rep) {T : Fin 2 → C} (hT : T 1 = I) : Imp O Rep (mix5.fn (V := C) · T) := by
  intro c hc k
  have h := L.imp_sum5 (T 0) c hc
  beta_reduce at h ⊢
  generalize (fun j : Fin 5 => if j.val = 0 then c else O) = X at h ⊢
  fin_cases k <;> simp [mix5, h, hT, L.Imul L.repI, L.mulI hc]

theorem imp_mix3 (L : FlatLaws O I Rep) {T : Fin 2 → C} (hT : T 1 = I) : Imp O Rep (mix3.fn (V := C) · T) := by
  intro c hc k
  have h := L.imp_sum3 (T 0) c hc
  beta_reduce at h ⊢
  generalize (fun j : Fin 3 => if j.val = 0 then c else O) = X at h ⊢
  fin_cases k <;> simp [mix3, h, hT, L.Imul L.repI, L.mulI hc]

theorem imp_mix2 (L : FlatLaws O I Rep) {T : Fin 1 → C} (hT : ∀ k, T k = I) : Imp O Rep (mix2.fn (V := C) · T) :=
  L.dif_imp L.imp2 fun _ => hT _

theorem imp_mix4s (L : FlatLaws O I Rep) {T : Fin 3 → C} (hT : ∀ k, T k = I) : Imp O Rep ((mix4s inv).fn (V := C) · T) :=
  L.dif_imp (L.imp4 inv) hT

theorem imp_mix4one (L : FlatLaws O I Rep) {T : Fin 1 → C} (hT : ∀ k, T k = I) : Imp O Rep ((mix4one inv).fn (V := C) · T) :=
  L.dif_imp (T := fun k => wpow (cj inv (T 0)) (k.val + 1)) (L.imp4 inv) fun k => by rw [hT, L.cjI, L.wpowI]

theorem imp_mix8s (L : FlatLaws O I Rep) {T : Fin 3 → C} (hT : ∀ k, T k = I) : Imp O Rep ((mix8s inv).fn (V := C) · T) :=
  L.dif_imp (L.imp8 inv) fun k => by
    fin_cases k <;> simp [hT, L.Imul L.repI]

theorem imp_mix8one (L : FlatLaws O I Rep) {T : Fin 1 → C} (hT : ∀ k, T k = I) : Imp O Rep ((mix8one inv).fn (V := C) · T) :=
  L.dif_imp (T := fun k => wpow (cj inv (T 0)) (k.val + 1)) (L.imp8 inv) fun k => by rw [hT, L.cjI, L.wpowI]

theorem core_imp {q b m s : ℕ} [NeZero q] {S : BFT q b} {tw : ℕ → Fin b → ℕ} {g : ℕ → C} (hN : N = q * m * s) (h0 : ZeroT O S)
    (h1 : Imp O Rep (S.fn (V := C) · fun k => wv (tw 0 k))) (hg : ∀ t, Rep (g t)) (hv : ∀ t < N, v t = if t < s then g t else O) :
    ∀ t < N, difPure q m s (coreG S wv tw) v t = if t < q * s then g (t % s) else O :=
  dif_imp_stage hN (fun p k => h0 _ k) h1 hg hv

theorem coreEnd_imp {q b s : ℕ} [NeZero q] {S : BFT q b} {tw : ℕ → Fin b → ℕ} {g : ℕ → C} (hN : N = q * s) (h0 : ZeroT O S)
    (h1 : Imp O Rep (S.fn (V := C) · fun k => wv (tw 0 k))) (hg : ∀ t, Rep (g t)) (hv : ∀ t < N, v t = if t < s then g t else O) :
    ∀ t < N, difPure q 1 s (coreG S wv tw) v t = g (t % s) := fun t ht => by
  rw [core_imp (by rw [hN]; ring) h0 h1 hg hv t ht, if_pos (by omega)]

theorem anySum_add (L : FlatLaws O I Rep) {q i : ℕ} {x w : ℕ → C} {c : C} (hc : Rep c) (l : List ℕ) (hx : ∀ j ∈ l, x j = O) : anySum q i x w l c = c := by
  induction l with
  | nil => rfl
  | cons j js ih =>
    unfold anySum
    rw [hx j (by simp), L.Omul, L.addO hc]
    exact ih fun j h => hx j (by simp [h])

theorem any_zero (L : FlatLaws O I Rep) {q : ℕ} [NeZero q] (w : ℕ → C) (tv : Option (ℕ → ℕ → C)) (p : ℕ) (k : Fin q) :
    anyG q w tv p (fun _ => O) k = O := by
  have h := L.anySum_add (q := q) (i := k.val) (x := fun _ => O) (w := w) L.repO (List.range q) fun _ _ => rfl
  unfold anyG anyVal
  rw [L.zero]
  cases tv
  · exact h
  · show mulpz (anySum q k.val (fun _ => O) w (List.range q) O) _ = O
    rw [h, L.Omul]

theorem any_imp (L : FlatLaws O I Rep) {q : ℕ} [NeZero q] {w : ℕ → C} (hw : w 0 = I) {tv : Option (ℕ → ℕ → C)} (ht : ∀ t ∈ tv, ∀ i, t 0 i = I) :
    Imp O Rep (anyG q w tv 0) := by
  intro c hc k
  have hq : 0 < q := Nat.pos_of_ne_zero (NeZero.ne q)
  have h : anySum q k.val (fun j => if (Fin.ofNat q j).val = 0 then c else O) w (List.range q) O = c := by
    obtain ⟨m, rfl⟩ : ∃ m, q = m + 1 := ⟨q - 1, by omega⟩
    rw [List.range_succ_eq_map]
    unfold anySum
    rw [Nat.mul_zero, Nat.zero_mod, hw, show (Fin.ofNat (m + 1) 0).val = 0 from rfl, if_pos rfl, L.mulI hc, L.Oadd hc]
    refine L.anySum_add hc _ fun j hj => ?_
    obtain ⟨a, ha, rfl⟩ := List.mem_map.1 hj
    have ha := List.mem_range.1 ha
    rw [show (Fin.ofNat (m + 1) (Nat.succ a)).val = a + 1 from Nat.mod_eq_of_lt (by omega), if_neg (by omega)]
  unfold anyG anyVal
  rw [L.zero]
  cases tv with
  | none => exact h
  | some t =>
    show mulpz (anySum q k.val (fun j => if (Fin.ofNat q j).val = 0 then c else O) w (List.range q) O) (t 0 k.val) = c
    rw [h, ht t rfl, L.mulI hc]

theorem mixAny_imp (L : FlatLaws O I Rep) (hw : wv 0 = I) (n : ℕ) :
    ∀ {s : ℕ} {v g : ℕ → C}, N = n * s → 2 ≤ n → (∀ t, Rep (g t)) → (∀ t < N, v t = if t < s then g t else O) →
      ∀ t < N, mixAnyRec false N wv n s v t = g (t % s) := by
  induction n using Nat.strong_induction_on with
  | _ n ih =>
    intro s v g hN h2 hg hv t ht
    have hpr := Nat.minFac_prime (n := n) (by omega)
    have hdv := Nat.minFac_dvd n
    have : NeZero n.minFac := ⟨hpr.ne_zero⟩
    rw [mixAnyRec.eq_def, dif_neg (by omega)]
    by_cases hp : n.minFac = n
    · rw [if_pos hp]
      rw [dif_imp_stage (by rw [hp, Nat.mul_one]; exact hN) (fun p k => L.any_zero _ _ p k) (L.any_imp (by simpa [mixIdx] using hw) (by simp)) hg hv t ht,
        if_pos (by rw [hp]; omega)]
    · rw [if_neg hp]
      obtain ⟨hN1, hN2⟩ := LinLaws.split_of (q := n.minFac) hN (Nat.mod_eq_zero_of_dvd hdv)
      obtain ⟨hlt, hge⟩ := LinLaws.div_ge hpr.two_le h2 (Nat.mod_eq_zero_of_dvd hdv) (fun e => hp e.symm)
      rw [ih _ hlt (g := fun t => g (t % s)) hN2 hge (fun _ => hg _) (dif_imp_stage hN1 (fun p k => L.any_zero _ _ p k) (L.any_imp (by simpa [mixIdx] using hw) (by
        intro t ht i
        cases ht
        simpa [mixIdx] using hw)) hg hv) t ht]
      exact congrArg g (Nat.mod_mod_of_dvd _ ⟨n.minFac, by ring⟩)

theorem mixRec_imp (L : FlatLaws O I Rep) (hw : wv 0 = I) (n : ℕ) :
    ∀ {s : ℕ} {v g : ℕ → C}, N = n * s → 2 ≤ n → (∀ t, Rep (g t)) → (∀ t < N, v t = if t < s then g t else O) →
      ∀ t < N, mixRec false N wv n s v t = g (t % s) := by
  induction n using Nat.strong_induction_on with
  | _ n ih =>
    intro s v g hN h2 hg hv t ht
    rw [mixRec.eq_def, dif_neg (by omega)]
    have step : ∀ {q : ℕ} {u : ℕ → C}, 2 ≤ q → n % q = 0 → n ≠ q → (∀ t < N, u t = if t < q * s then g (t % s) else O) →
        mixRec false N wv (n / q) (q * s) u t = g (t % s) := fun {q u} hq hd hne hu => by
      obtain ⟨n1, n2⟩ := LinLaws.split_of (q := q) hN hd
      obtain ⟨hlt, hge⟩ := LinLaws.div_ge hq h2 hd hne
      rw [ih _ hlt (g := fun t => g (t % s)) n2 hge (fun _ => hg _) hu t ht]
      exact congrArg g (Nat.mod_mod_of_dvd _ ⟨q, by ring⟩)
    have hz : ∀ {b : ℕ} (a : Fin b → ℕ), ∀ k, wv (mixIdx false N (a k * (s * 0))) = I := fun a k => by simpa [mixIdx] using hw
    by_cases h8 : n % 8 = 0
    · rw [if_pos h8]
      by_cases hn : n = 8
      · rw [if_pos hn]
        exact coreEnd_imp (by rw [hN, hn]) (fun T k => (L.imp8 false).zero L.repO k) (L.imp8 false) hg hv t ht
      · rw [if_neg hn]
        obtain ⟨n1, n2⟩ := LinLaws.split_of (q := 8) hN h8
        refine step (by omega) h8 hn ?_
        by_cases h1 : 2 ≤ s
        · rw [if_pos h1]
          exact core_imp n1 (L.zero_dif (L.imp8 false) fun X T => ⟨_, rfl⟩) (L.imp_mix8s (hz _)) hg hv
        · rw [if_neg h1]
          exact core_imp n1 (L.zero_dif (L.imp8 false) fun X T => ⟨fun k => wpow (cj false (T 0)) (k.val + 1), rfl⟩) (L.imp_mix8one fun _ => hw) hg hv
    rw [if_neg h8]
    by_cases h4 : n % 4 = 0
    · rw [if_pos h4]
      by_cases hn : n = 4
      · rw [if_pos hn]
        exact coreEnd_imp (by rw [hN, hn]) (fun T k => (L.imp4 false).zero L.repO k) (L.imp4 false) hg hv t ht
      · rw [if_neg hn]
        obtain ⟨n1, n2⟩ := LinLaws.split_of (q := 4) hN h4
        refine step (by omega) h4 hn ?_
        by_cases h1 : 2 ≤ s
        · rw [if_pos h1]
          exact core_imp n1 (L.zero_dif (L.imp4 false) fun X T => ⟨_, rfl⟩) (L.imp_mix4s (hz _)) hg hv
        · rw [if_neg h1]
          exact core_imp n1 (L.zero_dif (L.imp4 false) fun X T => ⟨fun k => wpow (cj false (T 0)) (k.val + 1), rfl⟩) (L.imp_mix4one fun _ => hw) hg hv
    rw [if_neg h4]
    have hz' : ∀ {b : ℕ} (k : Fin b), wv (mixIdx false N (s * 0)) = I := fun k => by simpa [mixIdx] using hw
    by_cases h22 : n % 2 = 0
    · rw [if_pos h22]
      by_cases hn : n = 2
      · rw [if_pos hn]
        exact coreEnd_imp (by rw [hN, hn]) (fun T k => L.imp2.zero L.repO k) L.imp2 hg hv t ht
      · rw [if_neg hn]
        obtain ⟨n1, n2⟩ := LinLaws.split_of (q := 2) hN h22
        exact step (by omega) h22 hn (core_imp n1 (L.zero_dif L.imp2 fun X T => ⟨fun _ => T 0, rfl⟩) (L.imp_mix2 hz') hg hv)
    rw [if_neg h22]
    by_cases h5 : n % 5 = 0
    · rw [if_pos h5]
      by_cases hn : n = 5
      · rw [if_pos hn]
        exact coreEnd_imp (by rw [hN, hn]) (fun T k => L.zero_sum5 _ k) (L.imp_sum5 _) hg hv t ht
      · rw [if_neg hn]
        obtain ⟨n1, n2⟩ := LinLaws.split_of (q := 5) hN h5
        exact step (by omega) h5 hn (core_imp n1 L.zero_mix5 (L.imp_mix5 (by simpa [mixIdx] using hw)) hg hv)
    rw [if_neg h5]
    by_cases h3 : n % 3 = 0
    · rw [if_pos h3]
      by_cases hn : n = 3
      · rw [if_pos hn]
        exact coreEnd_imp (by rw [hN, hn]) (fun T k => L.zero_sum3 _ k) (L.imp_sum3 _) hg hv t ht
      · rw [if_neg hn]
        obtain ⟨n1, n2⟩ := LinLaws.split_of (q := 3) hN h3
        exact step (by omega) h3 hn (core_imp n1 L.zero_mix3 (L.imp_mix3 (by simpa [mixIdx] using hw)) hg hv)
    rw [if_neg h3]
    exact L.mixAny_imp hw n hN h2 hg hv t ht

end mixed

/-! ### the transforms -/

section all
variable {c : C} {thr : Thr} {kind : AlgoKind} {n : ℕ}

theorem algo_imp (L : FlatLaws O I Rep) (hk : kind.Usable n) (h2 : 2 ≤ n) (hm : inv = true → kind ≠ .mixed) (hc : Rep c)
    (hv : ∀ t < n, v t = if t < 1 then c else O) : ∀ t < n, algoOut C thr kind inv .scale_1 n v t = c := by
  intro t ht
  unfold algoOut
  cases kind with
  | stock dit rad =>
    obtain ⟨l, rfl, hl, _⟩ := hk
    exact L.stock_imp rfl hl hc hv t ht
  | six =>
    obtain ⟨l, rfl, hl, _⟩ := hk
    simp only [logLoop_pow]
    exact L.sixOut_imp rfl hl hc hv t ht
  | mixed =>
    cases inv
    · exact L.mixRec_imp (L.mix0 n) n (g := fun _ => c) (by omega) h2 (fun _ => hc) hv t ht
    · exact absurd rfl (hm rfl)

theorem algo_con (L : FlatLaws O I Rep) {l : ℕ} (hl : n = 2 ^ l) (hk : kind.Usable n) (hm : kind ≠ .mixed) (hc : Rep c)
    (hv : ∀ t < n, v t = c) : ∀ t < n, algoOut C thr kind inv .scale_1 n v t = if t < 1 then dbl l c else O := by
  intro t ht
  unfold algoOut
  cases kind with
  | stock dit rad =>
    obtain ⟨l', rfl, h1, _⟩ := hk
    obtain rfl := Nat.pow_right_injective (by omega : 2 ≤ 2) hl
    exact L.stock_con rfl h1 hc hv t ht
  | six =>
    obtain ⟨l', rfl, h1, _⟩ := hk
    obtain rfl := Nat.pow_right_injective (by omega : 2 ≤ 2) hl
    simp only [logLoop_pow]
    exact L.sixOut_con rfl h1 hc hv t ht
  | mixed => exact absurd rfl hm

theorem dispatch_pow {l : ℕ} (hl : l ≤ 24) : dispatch (logOf (2 ^ l)) ≠ some .mixed := by
  rw [logOf_pow]
  interval_cases l <;> intro h <;> cases h

theorem fft_imp (L : FlatLaws O I Rep) (h2 : 2 ≤ n) (hm : inv = true → ∃ l ≤ 24, n = 2 ^ l) (hc : Rep c)
    (hv : ∀ t < n, v t = if t < 1 then c else O) : ∀ t < n, fftOut C thr inv .scale_1 n v t = c := by
  unfold fftOut
  cases hd : dispatch (logOf n) with
  | none =>
    have := dispatch_none hd
    rw [show n = 2 ^ 0 from logOf_some this] at h2
    omega
  | some kind =>
    refine L.algo_imp (AlgoKind.usable_of_dispatch hd) h2 (fun h e => ?_) hc hv
    obtain ⟨l, hl, rfl⟩ := hm h
    exact dispatch_pow hl (e ▸ hd)

theorem fft_con (L : FlatLaws O I Rep) {l : ℕ} (h1 : 1 ≤ l) (hl : l ≤ 24) (hn : n = 2 ^ l) (hc : Rep c)
    (hv : ∀ t < n, v t = c) : ∀ t < n, fftOut C thr inv .scale_1 n v t = if t < 1 then dbl l c else O := by
  unfold fftOut
  cases hd : dispatch (logOf n) with
  | none =>
    have := dispatch_none hd
    rw [hn, logOf_pow] at this
    cases this
    omega
  | some kind =>
    refine L.algo_con hn (AlgoKind.usable_of_dispatch hd) (fun e => ?_) hc hv
    subst hn
    exact dispatch_pow hl (e ▸ hd)

end all

end FlatLaws

end OTFFT
