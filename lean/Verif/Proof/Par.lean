/-
Two runs of the same transform in two different arithmetics: a relation between the doubles of one arithmetic and those of
the other that every operation of the library preserves holds between the results, if it holds between the inputs.
-/
import Verif.Proof.ApReal
import Verif.Proof.BlueObj
import Verif.Proof.Hom

namespace OTFFT

/-- `r` (on doubles) and `R` (on complex numbers) are preserved by all the operations the library uses, on data and on
tables. -/
structure ParLaws {E A F C : Type} [DArith E] [CArith E A] [DArith F] [CArith F C] (r : E → F → Prop) (R : A → C → Prop) :
    Prop where
  add : ∀ {c d a b}, R c a → R d b → R (addpz c d) (addpz a b)
  sub : ∀ {c d a b}, R c a → R d b → R (subpz c d) (subpz a b)
  cnj : ∀ {c a}, R c a → R (cnjpz c) (cnjpz a)
  jx : ∀ {c a}, R c a → R (jxpz c) (jxpz a)
  v8 : ∀ {c a}, R c a → R (v8xpz c) (v8xpz a)
  w8 : ∀ {c a}, R c a → R (w8xpz c) (w8xpz a)
  h1 : ∀ {c a}, R c a → R (h1xpz c) (h1xpz a)
  h3 : ∀ {c a}, R c a → R (h3xpz c) (h3xpz a)
  hf : ∀ {c a}, R c a → R (hfxpz c) (hfxpz a)
  hd : ∀ {c a}, R c a → R (hdxpz c) (hdxpz a)
  mul : ∀ {c d a b}, R c a → R d b → R (mulpz c d) (mulpz a b)
  cmul : ∀ {c d a b}, R c a → R d b → R (CArith.cmul c d) (CArith.cmul a b)
  muld : ∀ {c d a b}, R c a → R d b → R (CArith.mulpd c d) (CArith.mulpd a b)
  scl : ∀ {k w c a}, r k w → R c a → R (scl k c) (scl w a)
  pair : ∀ {p q x y}, r p x → r q y → R (CArith.cmk p q) (CArith.cmk x y)
  re : ∀ {c a}, R c a → r (CArith.re c) (CArith.re a)
  im : ∀ {c a}, R c a → r (CArith.im c) (CArith.im a)
  expj : ∀ {p x}, r p x → R (CArith.expj p) (CArith.expj x)
  dadd : ∀ {p q x y}, r p x → r q y → r (fadd p q) (fadd x y)
  dsub : ∀ {p q x y}, r p x → r q y → r (fsub p q) (fsub x y)
  dmul : ∀ {p q x y}, r p x → r q y → r (fmul p q) (fmul x y)
  ddiv : ∀ {p q x y}, r p x → r q y → r (fdiv p q) (fdiv x y)
  dneg : ∀ {p x}, r p x → r (fneg p) (fneg x)
  dsqrt : ∀ {p x}, r p x → r (fsqrt p) (fsqrt x)
  dcos : ∀ {p x}, r p x → r (fcos p) (fcos x)
  dsin : ∀ {p x}, r p x → r (fsin p) (fsin x)
  pi : r fpi fpi
  nat : ∀ n, r (fofNat n) (fofNat n)
  msq : ∀ k < 31, r (mysqrt (fofNat (2 ^ k))) (mysqrt (fofNat (2 ^ k)))

namespace ParLaws
open LinLaws (split le16 div_ge split_of)
variable {E A F C : Type} [DArith E] [CArith E A] [DArith F] [CArith F C] {r : E → F → Prop}
  {R : A → C → Prop} {mode : ScaleMode} {inv : Bool} {u : ℕ → A} {v : ℕ → C}

/-! ### tables -/

theorem ofD_hom (L : ParLaws r R) {y : E} {x : F} (h : r y x) : R (OTFFT.ofD A y) (OTFFT.ofD C x) := L.pair h (L.nat 0)

theorem zeroC (L : ParLaws r R) : R (CArith.cmk (fofNat 0) (fofNat 0)) (CArith.cmk (fofNat 0) (fofNat 0)) := L.pair (L.nat 0) (L.nat 0)

theorem theta (L : ParLaws r R) (N : ℕ) : r (thetaW E N) (thetaW F N) := L.ddiv (L.dmul (L.dneg (L.nat 2)) L.pi) (L.nat N)

theorem wt (L : ParLaws r R) (N q p : ℕ) (k : Fin (q - 1)) : R (wtVal A N q p k) (wtVal C N q p k) :=
  L.expj (L.dmul (L.dmul (L.theta N) (L.nat _)) (L.nat _))

theorem wr1 (L : ParLaws r R) (N p : ℕ) : R (wr1Val A N p) (wr1Val C N p) := L.expj (L.dmul (L.theta N) (L.nat _))

theorem nxn (L : ParLaws r R) (n a b : ℕ) : R (nxnVal A n a b) (nxnVal C n a b) :=
  L.expj (L.dmul (L.dmul (L.theta _) (L.nat _)) (L.nat _))

theorem cj_hom (L : ParLaws r R) {c : A} {a : C} (h : R c a) : R (OTFFT.cj inv c) (OTFFT.cj inv a) := by
  unfold OTFFT.cj
  cases inv
  · exact h
  · exact L.cnj h

theorem wpow_hom (L : ParLaws r R) {c : A} {a : C} (h : R c a) (k : ℕ) : R (OTFFT.wpow c k) (OTFFT.wpow a k) := by
  induction k using Nat.strong_induction_on with
  | _ k ih =>
    rw [OTFFT.wpow.eq_def c k, OTFFT.wpow.eq_def a k]
    by_cases h1 : k ≤ 1
    · rw [dif_pos h1, dif_pos h1]; exact h
    · rw [dif_neg h1, dif_neg h1]
      by_cases h2 : k % 2 = 0
      · rw [if_pos h2, if_pos h2]
        exact L.mul (ih _ (by omega)) (ih _ (by omega))
      · rw [if_neg h2, if_neg h2]
        exact L.mul (ih _ (by omega)) (ih _ (by omega))

theorem stockTw (L : ParLaws r R) (path : Path) (q N p : ℕ) (k : Fin (q - 1)) :
    R (stockhamTw A path q N inv p k) (stockhamTw C path q N inv p k) := by
  cases path
  · exact L.cj_hom (L.wt _ _ _ _)
  · exact L.wpow_hom (L.cj_hom (L.wr1 _ _)) _

theorem mixTab_hom (L : ParLaws r R) (n p : ℕ) : R (mixTabVal A n p) (mixTabVal C n p) := by
  have h := L.dmul (L.nat p) (L.ddiv (L.dmul (L.nat 2) L.pi) (L.nat n))
  exact L.pair (L.dcos h) (L.dneg (L.dsin h))

theorem sixTw_hom (L : ParLaws r R) (n c k : ℕ) : R (OTFFT.sixTw A n c k) (OTFFT.sixTw C n c k) := by
  unfold OTFFT.sixTw
  split
  · exact L.nxn _ _ _
  · exact L.nxn _ _ _

/-- two lists of assignments: the same indices, related values -/
theorem lastIdx_rel {ws : List (ℕ × A)} {ws' : List (ℕ × C)} (h : List.Forall₂ (fun a b => a.1 = b.1 ∧ R a.2 b.2) ws ws') (t : ℕ) :
    (lastIdx ws t = none ∧ lastIdx ws' t = none) ∨ ∃ a b, lastIdx ws t = some a ∧ lastIdx ws' t = some b ∧ R a b := by
  induction h with
  | nil => exact .inl ⟨rfl, rfl⟩
  | cons hab _ ih =>
    unfold lastIdx
    rcases ih with ⟨e, e'⟩ | ⟨a, b, e, e', h⟩
    · rw [e, e', hab.1]
      dsimp only
      split
      · exact .inr ⟨_, _, rfl, rfl, hab.2⟩
      · exact .inl ⟨rfl, rfl⟩
    · rw [e, e']
      exact .inr ⟨a, b, rfl, rfl, h⟩

theorem tabOf_rel {d : A} {d' : C} {m : ℕ} {it : ℕ → List (ℕ × A)} {it' : ℕ → List (ℕ × C)} (hd : R d d')
    (h : ∀ i, List.Forall₂ (fun a b => a.1 = b.1 ∧ R a.2 b.2) (it i) (it' i)) (t : ℕ) : R (tabOf d m it t) (tabOf d' m it' t) := by
  unfold tabOf
  induction List.range m with
  | nil => exact hd
  | cons i is ih =>
    rw [List.findSome?_cons, List.findSome?_cons]
    rcases lastIdx_rel (h i) t with ⟨e, e'⟩ | ⟨a, b, e, e', hr⟩
    · rw [e, e']; exact ih
    · rw [e, e']; exact hr

theorem half_hom (L : ParLaws r R) {p q : E} {x y : F} (h : r p x) (h' : r q y) : R (OTFFT.half A p q) (OTFFT.half C x y) := by
  exact L.pair (L.ddiv h (L.nat 2)) (L.ddiv h' (L.nat 2))

theorem rfftTab_hom (L : ParLaws r R) (N t : ℕ) : R (OTFFT.rfftTab A N t) (OTFFT.rfftTab C N t) := by
  refine tabOf_rel (L.ofD_hom (L.nat 0)) (fun p => ?_) t
  have h := L.dmul (L.nat p) (L.ddiv (L.dmul (L.nat 2) L.pi) (L.nat N))
  have hc := L.dcos h
  have hs := L.dneg (L.dsin h)
  have h1 := L.nat 1
  have h0 := L.nat 0
  have hn := L.dneg h1
  unfold rfftIts
  dsimp only
  split
  · exact .cons ⟨rfl, L.half_hom (L.dsub h1 hs) hc⟩ (.cons ⟨rfl, L.half_hom (L.dadd h1 hs) hc⟩ .nil)
  split
  · exact .cons ⟨rfl, L.half_hom h1 h1⟩ (.cons ⟨rfl, L.half_hom h1 h1⟩ .nil)
  split
  · exact .cons ⟨rfl, L.half_hom h1 h1⟩ (.cons ⟨rfl, L.half_hom h1 h1⟩ (.cons ⟨rfl, L.half_hom h1 hn⟩ .nil))
  split
  · exact .cons ⟨rfl, L.half_hom h1 h1⟩ (.cons ⟨rfl, L.half_hom (L.nat 2) h0⟩ (.cons ⟨rfl, L.half_hom h1 hn⟩ (.cons ⟨rfl, L.half_hom h0 h0⟩
      (.cons ⟨rfl, L.half_hom h1 h1⟩ .nil))))
  · exact .cons ⟨rfl, L.half_hom (L.dsub h1 hs) hc⟩ (.cons ⟨rfl, L.half_hom (L.dadd h1 hc) (L.dneg hs)⟩
      (.cons ⟨rfl, L.half_hom (L.dadd h1 hc) hs⟩ (.cons ⟨rfl, L.half_hom (L.dsub h1 hs) (L.dneg hc)⟩
      (.cons ⟨rfl, L.half_hom (L.dadd h1 hs) (L.dneg hc)⟩ (.cons ⟨rfl, L.half_hom (L.dsub h1 hc) hs⟩
      (.cons ⟨rfl, L.half_hom (L.dsub h1 hc) (L.dneg hs)⟩ (.cons ⟨rfl, L.half_hom (L.dadd h1 hs) hc⟩ .nil)))))))

theorem dctTab_hom (L : ParLaws r R) (N t : ℕ) : R (OTFFT.dctTab A N t) (OTFFT.dctTab C N t) := by
  refine tabOf_rel (L.ofD_hom (L.nat 0)) (fun p => ?_) t
  have h := L.dmul (L.nat p) (L.ddiv L.pi (L.nat (2 * N)))
  exact .cons ⟨rfl, L.pair (L.dcos h) (L.dsin h)⟩ (.cons ⟨rfl, L.pair (L.dsin h) (L.dcos h)⟩ .nil)

theorem blueTab_hom (L : ParLaws r R) (N t : ℕ) : R (OTFFT.blueTab A N t) (OTFFT.blueTab C N t) := by
  have h : ∀ j, r (fmul (fofNat j) (fdiv fpi (fofNat N))) (fmul (fofNat j) (fdiv fpi (fofNat N))) := fun j =>
    L.dmul (L.nat j) (L.ddiv L.pi (L.nat N))
  unfold OTFFT.blueTab
  split
  · exact L.ofD_hom (L.nat 1)
  split
  · exact L.ofD_hom (L.dneg (L.nat 1))
  split
  · exact L.pair (L.dcos (h _)) (L.dneg (L.dsin (h _)))
  · exact L.pair (L.dcos (h _)) (L.dneg (L.dneg (L.dsin (h _))))

/-- the length is a power of two that fits an `int` -/
def Pow (N : ℕ) : Prop := ∃ k < 31, N = 2 ^ k

theorem scale (L : ParLaws r R) {c : A} {a : C} {N : ℕ} (hN : Pow N) (mode : ScaleMode) (h : R c a) :
    R (scalepz N mode c) (scalepz N mode a) := by
  cases mode
  · exact h
  · obtain ⟨k, hk, rfl⟩ := hN
    exact L.scl (L.ddiv (L.nat 1) (L.msq k hk)) h
  · exact L.scl (L.ddiv (L.nat 1) (L.nat _)) h

theorem mixScale_hom (L : ParLaws r R) {c : A} {a : C} (N : ℕ) (mode : ScaleMode) (h : R c a) :
    R (OTFFT.mixScale N mode c) (OTFFT.mixScale N mode a) := by
  cases mode
  · exact h
  · exact L.scl (L.dsqrt (L.ddiv (L.nat 1) (L.nat _))) h
  · exact L.scl (L.ddiv (L.nat 1) (L.nat _)) h

/-! ### butterflies -/

/-- the butterfly preserves `R` -/
def Bfly (R : A → C → Prop) {q : ℕ} (B : BF q) : Prop :=
  ∀ (y : Fin q → A) (x : Fin q → C), (∀ j, R (y j) (x j)) → ∀ j, R (B.fn y j) (B.fn x j)

macro "par_steps" L:term "," h:term : tactic =>
  `(tactic| repeat' first
    | exact $h _
    | apply ParLaws.add $L
    | apply ParLaws.sub $L
    | apply ParLaws.jx $L
    | apply ParLaws.v8 $L
    | apply ParLaws.w8 $L
    | apply ParLaws.h1 $L
    | apply ParLaws.h3 $L
    | apply ParLaws.hf $L
    | apply ParLaws.hd $L)

theorem bfly2 (L : ParLaws r R) : Bfly R bf2 := by
  intro y x h j
  fin_cases j
  · exact L.add (h 0) (h 1)
  · exact L.sub (h 0) (h 1)

theorem bfly4 (L : ParLaws r R) (inv : Bool) : Bfly R (bf4 inv) := by
  intro y x h j
  cases inv <;> fin_cases j <;> (
    simp only [bf4, bf4fwd, bf4inv, if_true, if_false, Bool.false_eq_true]
    simp only [Fin.zero_eta, Fin.mk_one, Fin.reduceFinMk, Matrix.cons_val]
    par_steps L, h)

theorem bfly8 (L : ParLaws r R) (inv : Bool) : Bfly R (bf8 inv) := by
  intro y x h j
  cases inv <;> fin_cases j <;> (
    simp only [bf8, bf8fwd, bf8inv, if_true, if_false, Bool.false_eq_true]
    simp only [Fin.zero_eta, Fin.mk_one, Fin.reduceFinMk, Matrix.cons_val]
    par_steps L, h)

theorem bfly16 (L : ParLaws r R) (inv : Bool) : Bfly R (bf16 inv) := by
  intro y x h j
  cases inv <;> fin_cases j <;> (
    simp only [bf16, bf16fwd, bf16inv, if_true, if_false, Bool.false_eq_true]
    simp only [Fin.zero_eta, Fin.mk_one, Fin.reduceFinMk, Matrix.cons_val]
    par_steps L, h)

/-! ### stages -/

section stage
variable {q m s N : ℕ} [NeZero q]

theorem dif_stage {Gu : ℕ → (Fin q → A) → Fin q → A} {Gr : ℕ → (Fin q → C) → Fin q → C} (hN : N = q * m * s)
    (hG : ∀ p < m, ∀ ys xs, (∀ j, R (ys j) (xs j)) → ∀ i, R (Gu p ys i) (Gr p xs i))
    (hv : ∀ t < N, R (u t) (v t)) :
    ∀ t < N, R (difPure q m s Gu u t) (difPure q m s Gr v t) := by
  intro t ht
  have hr : 0 < q := Nat.pos_of_ne_zero (NeZero.ne q)
  have hs : 0 < s := Nat.pos_of_ne_zero (by rintro rfl; omega)
  have hm : t / s / q < m := by
    apply Nat.div_lt_of_lt_mul
    apply Nat.div_lt_of_lt_mul
    rw [hN, Nat.mul_comm (q * m) s] at ht
    exact ht
  apply hG _ hm
  intro j
  apply hv
  have h1 : t % s < s := Nat.mod_lt _ hs
  have h2 : t / s / q + m * j.val + 1 ≤ m * q := by
    calc t / s / q + m * j.val + 1 ≤ m * j.val + m := by omega
      _ = m * (j.val + 1) := by ring
      _ ≤ m * q := Nat.mul_le_mul_left _ j.isLt
  calc t % s + s * (t / s / q + m * j.val) < s * (t / s / q + m * j.val + 1) := by rw [Nat.mul_add s _ 1]; omega
    _ ≤ s * (m * q) := Nat.mul_le_mul_left _ h2
    _ = N := by rw [hN]; ring

theorem dit_stage {Gu : ℕ → (Fin q → A) → Fin q → A} {Gr : ℕ → (Fin q → C) → Fin q → C} (hN : N = q * m * s)
    (hG : ∀ p < m, ∀ ys xs, (∀ j, R (ys j) (xs j)) → ∀ i, R (Gu p ys i) (Gr p xs i))
    (hv : ∀ t < N, R (u t) (v t)) :
    ∀ t < N, R (ditPure q m s Gu u t) (ditPure q m s Gr v t) := by
  intro t ht
  have hs : 0 < s := Nat.pos_of_ne_zero (by rintro rfl; omega)
  have hm0 : 0 < m := Nat.pos_of_ne_zero (by rintro rfl; simp at hN; omega)
  have hm : t / s % m < m := Nat.mod_lt _ hm0
  apply hG _ hm
  intro j
  apply hv
  have h1 : t % s < s := Nat.mod_lt _ hs
  have h2 : q * (t / s % m) + j.val + 1 ≤ m * q := by
    calc q * (t / s % m) + j.val + 1 ≤ q * (t / s % m) + q := by have := j.isLt; omega
      _ = q * (t / s % m + 1) := by ring
      _ ≤ q * m := Nat.mul_le_mul_left _ hm
      _ = m * q := Nat.mul_comm _ _
  calc t % s + s * (q * (t / s % m) + j.val) < s * (q * (t / s % m) + j.val + 1) := by
        rw [Nat.mul_add s _ 1]; omega
    _ ≤ s * (m * q) := Nat.mul_le_mul_left _ h2
    _ = N := by rw [hN]; ring

end stage

section
variable {q : ℕ} {B : BF q}

theorem difOut_hom (L : ParLaws r R) (hB : Bfly R B) {S : Fin (q - 1) → A} {T : Fin (q - 1) → C} (hT : ∀ k, R (S k) (T k)) (ys : Fin q → A) (xs : Fin q → C)
    (h : ∀ j, R (ys j) (xs j)) (i : Fin q) : R (difOut B ys S i) (difOut B xs T i) := by
  unfold difOut
  by_cases h0 : i.val = 0
  · rw [dif_pos h0, dif_pos h0]
    exact hB ys xs h i
  · rw [dif_neg h0, dif_neg h0]
    exact L.mul (hT _) (hB ys xs h i)

theorem ditOut_hom (L : ParLaws r R) (hB : Bfly R B) {S : Fin (q - 1) → A} {T : Fin (q - 1) → C} (hT : ∀ k, R (S k) (T k)) (ys : Fin q → A) (xs : Fin q → C)
    (h : ∀ j, R (ys j) (xs j)) (i : Fin q) : R (ditOut B ys S i) (ditOut B xs T i) := by
  unfold ditOut
  refine hB _ _ (fun j => ?_) i
  by_cases h0 : j.val = 0
  · simp only [h0, dite_true]; exact h j
  · simp only [h0, dite_false]; exact L.mul (hT _) (h j)

end

/-! ### Stockham transforms -/

section stock
variable {N : ℕ}

theorem end_hom (L : ParLaws r R) {q s : ℕ} [NeZero q] {B : BF q} (hB : Bfly R B)
    (hN : N = q * s) (hP : Pow N) (hv : ∀ t < N, R (u t) (v t)) :
    ∀ t < N, R (difPure q 1 s (endG B (q * s) mode) u t) (difPure q 1 s (endG B (q * s) mode) v t) :=
  dif_stage (by rw [hN]; ring) (fun _ _ _ _ h i => hB _ _ (fun j => L.scale (hN ▸ hP) mode (h j)) i) hv

theorem endPure_hom (L : ParLaws r R) {n s : ℕ} (hn : n = 2 ∨ n = 4 ∨ n = 8 ∨ n = 16)
    (hN : N = n * s) (hP : Pow N) (hv : ∀ t < N, R (u t) (v t)) :
    ∀ t < N, R (endPure inv mode n s u t) (endPure inv mode n s v t) := by
  intro t ht
  unfold endPure
  rcases hn with rfl | rfl | rfl | rfl
  · exact L.end_hom L.bfly2 hN hP hv t ht
  · exact L.end_hom (L.bfly4 inv) hN hP hv t ht
  · exact L.end_hom (L.bfly8 inv) hN hP hv t ht
  · exact L.end_hom (L.bfly16 inv) hN hP hv t ht

section recs
variable {q e : ℕ} [NeZero q] {B : BF q} {S : ℕ → Fin (q - 1) → A} {T : ℕ → Fin (q - 1) → C}

theorem difRec_hom (L : ParLaws r R) (hB : Bfly R B) (hT : ∀ p k, R (S p k) (T p k)) (hP : Pow N) (hq : q = 2 ^ e) (e2 : 2 ≤ e) (e4 : e ≤ 4) (l : ℕ) :
    ∀ {n s : ℕ} {u : ℕ → A} {v : ℕ → C}, n = 2 ^ l → 1 ≤ l → N = n * s → (∀ t < N, R (u t) (v t)) →
      ∀ t < N, R (difRec q B inv S mode n s u t) (difRec q B inv T mode n s v t) := by
  induction l using Nat.strong_induction_on with
  | _ l ih =>
    intro n s u v hn hl hN hv t ht
    have hr := le16 hq e2 e4
    rw [difRec.eq_def q B inv S mode n s u, difRec.eq_def q B inv T mode n s v]
    by_cases hc : n ≤ q ∨ q < 2
    · rw [dif_pos hc, dif_pos hc]
      have hnr : n ≤ 16 := by omega
      exact L.endPure_hom (by rw [hn] at hnr ⊢; exact pow_le_16 hl hnr) hN hP hv t ht
    · rw [dif_neg hc, dif_neg hc]
      obtain ⟨hel, hd, hN1, hN2⟩ := split hq hn hN (by omega)
      refine ih (l - e) (by omega) hd (by omega) hN2 (dif_stage hN1 (fun p _ ys xs h i => ?_) hv) t ht
      exact L.difOut_hom hB (hT _) ys xs h i

theorem ditRec_hom (L : ParLaws r R) (hB : Bfly R B) (hT : ∀ p k, R (S p k) (T p k)) (hP : Pow N) (hq : q = 2 ^ e) (e2 : 2 ≤ e) (e4 : e ≤ 4) (l : ℕ) :
    ∀ {n s : ℕ} {u : ℕ → A} {v : ℕ → C}, n = 2 ^ l → 1 ≤ l → N = n * s → (∀ t < N, R (u t) (v t)) →
      ∀ t < N, R (ditRec q B inv S mode n s u t) (ditRec q B inv T mode n s v t) := by
  induction l using Nat.strong_induction_on with
  | _ l ih =>
    intro n s u v hn hl hN hv t ht
    have hr := le16 hq e2 e4
    rw [ditRec.eq_def q B inv S mode n s u, ditRec.eq_def q B inv T mode n s v]
    by_cases hc : n ≤ q ∨ q < 2
    · rw [dif_pos hc, dif_pos hc]
      have hnr : n ≤ 16 := by omega
      exact L.endPure_hom (by rw [hn] at hnr ⊢; exact pow_le_16 hl hnr) hN hP hv t ht
    · rw [dif_neg hc, dif_neg hc]
      obtain ⟨hel, hd, hN1, hN2⟩ := split hq hn hN (by omega)
      exact dit_stage hN1 (fun p _ ys xs h i => L.ditOut_hom hB (hT _) ys xs h i)
        (ih (l - e) (by omega) hd (by omega) hN2 hv) t ht

end recs

theorem stockOut_hom (L : ParLaws r R) {th : ℕ} {dit : Bool} {rad : Radix} {l N : ℕ} (hN : N = 2 ^ l) (hl : 1 ≤ l) (h31 : l < 31)
    (hv : ∀ t < N, R (u t) (v t)) :
    ∀ t < N, R (stockOut A th dit rad inv mode N u t) (stockOut C th dit rad inv mode N v t) := by
  cases dit <;> cases rad
  · exact L.difRec_hom (e := 2) (L.bfly4 inv) (fun _ _ => L.stockTw _ _ _ _ _) ⟨l, h31, hN⟩ (by norm_num) (by omega) (by omega) l hN hl (by omega) hv
  · exact L.difRec_hom (e := 3) (L.bfly8 inv) (fun _ _ => L.stockTw _ _ _ _ _) ⟨l, h31, hN⟩ (by norm_num) (by omega) (by omega) l hN hl (by omega) hv
  · exact L.difRec_hom (e := 4) (L.bfly16 inv) (fun _ _ => L.stockTw _ _ _ _ _) ⟨l, h31, hN⟩ (by norm_num) (by omega) (by omega) l hN hl (by omega) hv
  · exact L.ditRec_hom (e := 2) (L.bfly4 inv) (fun _ _ => L.stockTw _ _ _ _ _) ⟨l, h31, hN⟩ (by norm_num) (by omega) (by omega) l hN hl (by omega) hv
  · exact L.ditRec_hom (e := 3) (L.bfly8 inv) (fun _ _ => L.stockTw _ _ _ _ _) ⟨l, h31, hN⟩ (by norm_num) (by omega) (by omega) l hN hl (by omega) hv
  · exact L.ditRec_hom (e := 4) (L.bfly16 inv) (fun _ _ => L.stockTw _ _ _ _ _) ⟨l, h31, hN⟩ (by norm_num) (by omega) (by omega) l hN hl (by omega) hv

end stock

/-! ### six-step and eight-step -/

section six
variable {n : ℕ}
open ApLaws (mod_lt_of rc_lt)

theorem transp_hom (hv : ∀ t < n * n, R (u t) (v t)) : ∀ t < n * n, R (transpV n u t) (transpV n v t) :=
  fun _ ht => hv _ (rc_lt (Nat.div_lt_of_lt_mul ht) (mod_lt_of ht))

theorem rec8_hom (L : ParLaws r R) {l N : ℕ} (hN : N = 2 ^ l) (hl : 1 ≤ l) (h31 : l < 31) (hv : ∀ t < N, R (u t) (v t)) :
    ∀ t < N, R (difRec 8 (bf8 inv) inv (stockhamTw A .serial 8 N inv) mode N 1 u t) (difRec 8 (bf8 inv) inv (stockhamTw C .serial 8 N inv) mode N 1 v t) :=
  L.difRec_hom (e := 3) (L.bfly8 inv) (fun _ _ => L.stockTw _ _ _ _ _) ⟨l, h31, hN⟩ (by norm_num) (by omega) (by omega) l hN hl (by omega) hv

theorem rows_hom (L : ParLaws r R) {l : ℕ} (hn : n = 2 ^ l) (hl : 1 ≤ l) (h31 : 2 * l + 3 < 31) (hv : ∀ t < n * n, R (u t) (v t)) :
    ∀ t < n * n, R (sixRowsV inv n u t) (sixRowsV inv n v t) := fun t ht =>
  L.rec8_hom (inv := inv) (mode := .scale_1) (u := fun j => u (t / n * n + j)) (v := fun j => v (t / n * n + j))
    hn hl (by omega) (fun j hj => hv _ (by rw [Nat.add_comm]; exact rc_lt hj (Nat.div_lt_of_lt_mul ht))) (t % n) (mod_lt_of ht)

theorem mult_hom (L : ParLaws r R) (hP : Pow (n * n)) (hv : ∀ t < n * n, R (u t) (v t)) :
    ∀ t < n * n, R (sixMultV inv mode n u t) (sixMultV inv mode n v t) := fun t ht =>
  L.mul (L.scale hP _ (L.cj_hom (L.sixTw_hom _ _ _))) (hv (t / n + t % n * n) (rc_lt (Nat.div_lt_of_lt_mul ht) (mod_lt_of ht)))

theorem six_hom (L : ParLaws r R) {l : ℕ} (hn : n = 2 ^ l) (hl : 1 ≤ l) (h31 : 2 * l + 3 < 31) (hv : ∀ t < n * n, R (u t) (v t)) :
    ∀ t < n * n, R (sixPure inv mode n u t) (sixPure inv mode n v t) :=
  transp_hom (L.rows_hom hn hl h31 (L.mult_hom ⟨l + l, by omega, by rw [hn, pow_add]⟩ (L.rows_hom hn hl h31 (transp_hom hv))))

theorem eightPre_hom (L : ParLaws r R) {N1 : ℕ} (hP : Pow (8 * N1)) (hv : ∀ t < 8 * N1, R (u t) (v t)) :
    ∀ t < 8 * N1, R (eightPreV inv mode N1 u t) (eightPreV inv mode N1 v t) := by
  intro t ht
  have h1 : 0 < N1 := by omega
  have hq : t % N1 < N1 := Nat.mod_lt _ h1
  exact L.difOut_hom (L.bfly8 inv) (fun _ => L.wpow_hom (L.cj_hom (L.wr1 _ _)) _) (fun j => scalepz (8 * N1) mode (u (t % N1 + N1 * j.val)))
    (fun j => scalepz (8 * N1) mode (v (t % N1 + N1 * j.val)))
    (fun j => L.scale hP mode (hv _ (by
      have hj := j.isLt
      calc t % N1 + N1 * j.val < N1 * (j.val + 1) := by rw [Nat.mul_add]; omega
        _ ≤ N1 * 8 := Nat.mul_le_mul_left _ hj
        _ = 8 * N1 := Nat.mul_comm _ _))) (Fin.ofNat 8 (t / N1))

theorem eight_hom (L : ParLaws r R) {l : ℕ} (hn : n = 2 ^ l) (hl : 1 ≤ l) (h31 : 2 * l + 3 < 31) (hv : ∀ t < 8 * (n * n), R (u t) (v t)) :
    ∀ t < 8 * (n * n), R (eightPure inv mode n u t) (eightPure inv mode n v t) := by
  intro t ht
  have h1 : 1 ≤ n * n := by omega
  have a1 := L.eightPre_hom (inv := inv) (mode := mode) ⟨3 + (l + l), by omega, by rw [hn, pow_add, pow_add]; norm_num⟩ hv
  have a2 : ∀ t < 8 * (n * n), R (eightSubV inv n (eightPreV inv mode (n * n) u) t) (eightSubV inv n (eightPreV inv mode (n * n) v) t) := by
    intro t ht
    have hb : t / (n * n) < 8 := Nat.div_lt_of_lt_mul (by omega)
    exact L.six_hom (inv := inv) (mode := .scale_1) (u := fun j => eightPreV inv mode (n * n) u (t / (n * n) * (n * n) + j))
      (v := fun j => eightPreV inv mode (n * n) v (t / (n * n) * (n * n) + j)) hn hl h31
      (fun j hj => a1 _ (by rw [Nat.add_comm]; exact rc_lt hj hb)) (t % (n * n)) (Nat.mod_lt _ h1)
  exact a2 (t / 8 + n * n * (t % 8)) (by
    have : t / 8 < n * n := by omega
    rw [Nat.mul_comm (n * n)]
    exact rc_lt this (by omega))

theorem sixOut_hom (L : ParLaws r R) {l N : ℕ} (hN : N = 2 ^ l) (hl : 1 ≤ l) (h31 : l < 28) (hv : ∀ t < N, R (u t) (v t)) :
    ∀ t < N, R (sixOut inv mode l u t) (sixOut inv mode l v t) := by
  intro t ht
  unfold sixOut
  by_cases h5 : l ≤ 5
  · rw [if_pos h5, if_pos h5]
    subst hN
    exact L.rec8_hom rfl hl (by omega) hv t ht
  · rw [if_neg h5, if_neg h5]
    by_cases h2 : l % 2 = 1
    · rw [if_pos h2, if_pos h2]
      have e := pow_split_odd h5 h2
      rw [hN, e] at hv ht
      exact L.eight_hom rfl (by omega) (by omega) hv t ht
    · rw [if_neg h2, if_neg h2]
      have e : 2 ^ l = 2 ^ (l / 2) * 2 ^ (l / 2) := by rw [← pow_add]; congr 1; omega
      rw [hN, e] at hv ht
      exact L.six_hom rfl (by omega) (by omega) hv t ht

end six

/-! ### mixed radix -/

/-- the stage body preserves `R` -/
def BflyT (R : A → C → Prop) {q b : ℕ} (S : BFT q b) : Prop :=
  ∀ (y : Fin q → A) (x : Fin q → C) (U : Fin b → A) (T : Fin b → C), (∀ k, R (U k) (T k)) → (∀ j, R (y j) (x j)) → ∀ j, R (S.fn y U j) (S.fn x T j)

theorem bt_end {q : ℕ} {B : BF q} (h : Bfly R B) : BflyT R (mixEndBF B) := fun y x _ _ _ hx j => h y x hx j
theorem bt_mix2 (L : ParLaws r R) : BflyT R mix2 := fun y x _ _ hT hx j => L.difOut_hom L.bfly2 (fun _ => hT 0) y x hx j
theorem bt_mix4s (L : ParLaws r R) : BflyT R (mix4s inv) := fun y x _ _ hT hx j => L.difOut_hom (L.bfly4 inv) hT y x hx j
theorem bt_mix4one (L : ParLaws r R) : BflyT R (mix4one inv) := fun y x _ _ hT hx j =>
  L.difOut_hom (L.bfly4 inv) (fun k => L.wpow_hom (L.cj_hom (hT 0)) (k.val + 1)) y x hx j
theorem bt_mix8one (L : ParLaws r R) : BflyT R (mix8one inv) := fun y x _ _ hT hx j =>
  L.difOut_hom (L.bfly8 inv) (fun k => L.wpow_hom (L.cj_hom (hT 0)) (k.val + 1)) y x hx j
theorem bt_mix8s (L : ParLaws r R) : BflyT R (mix8s inv) := by
  intro y x U T hT hx j
  refine L.difOut_hom (L.bfly8 inv) (fun k => ?_) y x hx j
  have a1 := hT 0
  have a2 := hT 1
  have a3 := hT 2
  fin_cases k
  · exact a1
  · exact a2
  · exact a3
  · exact L.mul a2 a2
  · exact L.mul a2 a3
  · exact L.mul a3 a3
  · exact L.mul a3 (L.mul a2 a2)

theorem sum3_hom (L : ParLaws r R) {y : Fin 3 → A} {x : Fin 3 → C} {wu : A} {w : C} (h1 : R wu w) (hx : ∀ j, R (y j) (x j)) (j : Fin 3) :
    R (sum3 y wu j) (sum3 x w j) := by
  have h2 := L.mul h1 h1
  fin_cases j
  · exact L.add (L.add (hx 0) (hx 1)) (hx 2)
  · exact L.add (L.add (hx 0) (L.mul h1 (hx 1))) (L.mul h2 (hx 2))
  · exact L.add (L.add (hx 0) (L.mul h2 (hx 1))) (L.mul h1 (hx 2))

theorem sum5_hom (L : ParLaws r R) {y : Fin 5 → A} {x : Fin 5 → C} {wu : A} {w : C} (h1 : R wu w) (hx : ∀ j, R (y j) (x j)) (j : Fin 5) :
    R (sum5 y wu j) (sum5 x w j) := by
  have h2 := L.mul h1 h1
  have h3 := L.mul h1 h2
  have h4 := L.mul h2 h2
  fin_cases j
  · exact L.add (L.add (L.add (L.add (hx 0) (hx 1)) (hx 2)) (hx 3)) (hx 4)
  · exact L.add (L.add (L.add (L.add (hx 0) (L.mul h1 (hx 1))) (L.mul h2 (hx 2))) (L.mul h3 (hx 3))) (L.mul h4 (hx 4))
  · exact L.add (L.add (L.add (L.add (hx 0) (L.mul h2 (hx 1))) (L.mul h4 (hx 2))) (L.mul h1 (hx 3))) (L.mul h3 (hx 4))
  · exact L.add (L.add (L.add (L.add (hx 0) (L.mul h3 (hx 1))) (L.mul h1 (hx 2))) (L.mul h4 (hx 3))) (L.mul h2 (hx 4))
  · exact L.add (L.add (L.add (L.add (hx 0) (L.mul h4 (hx 1))) (L.mul h3 (hx 2))) (L.mul h2 (hx 3))) (L.mul h1 (hx 4))

theorem bt_end3 (L : ParLaws r R) : BflyT R mixEnd3 := fun _ _ _ _ hT hx j => L.sum3_hom (hT 0) hx j
theorem bt_end5 (L : ParLaws r R) : BflyT R mixEnd5 := fun _ _ _ _ hT hx j => L.sum5_hom (hT 0) hx j

theorem bt_mix3 (L : ParLaws r R) : BflyT R mix3 := by
  intro y x U T hT hx j
  have hs := L.sum3_hom (hT 0) hx
  have w1 := hT 1
  have w2 := L.mul w1 w1
  fin_cases j
  · exact hs 0
  · exact L.mul (hs 1) w1
  · exact L.mul (hs 2) w2

theorem bt_mix5 (L : ParLaws r R) : BflyT R mix5 := by
  intro y x U T hT hx j
  have hs := L.sum5_hom (hT 0) hx
  have w1 := hT 1
  have w2 := L.mul w1 w1
  have w3 := L.mul w1 w2
  have w4 := L.mul w2 w2
  fin_cases j
  · exact hs 0
  · exact L.mul (hs 1) w1
  · exact L.mul (hs 2) w2
  · exact L.mul (hs 3) w3
  · exact L.mul (hs 4) w4

theorem anySum_hom (L : ParLaws r R) {p i : ℕ} {y wu : ℕ → A} {x w : ℕ → C} (hw : ∀ j, R (wu j) (w j)) (hx : ∀ j, R (y j) (x j)) (js : List ℕ) :
    ∀ {zu z}, R zu z → R (anySum p i y wu js zu) (anySum p i x w js z) := by
  induction js with
  | nil => intro zu z hz; exact hz
  | cons j js ih => intro zu z hz; exact ih (L.add hz (L.mul (hx j) (hw _)))

theorem anyG_hom (L : ParLaws r R) {p : ℕ} [NeZero p] {wu : ℕ → A} {w : ℕ → C} (hw : ∀ j, R (wu j) (w j))
    {tu : Option (ℕ → ℕ → A)} {tv : Option (ℕ → ℕ → C)}
    (ht : Option.Rel (fun f g => ∀ a b, R (f a b) (g a b)) tu tv) (q : ℕ) (ys : Fin p → A) (xs : Fin p → C)
    (hx : ∀ j, R (ys j) (xs j)) (i : Fin p) : R (anyG p wu tu q ys i) (anyG p w tv q xs i) := by
  unfold anyG anyVal
  have := L.anySum_hom (p := p) (i := i.val) hw (y := fun j => ys (Fin.ofNat p j)) (x := fun j => xs (Fin.ofNat p j))
    (fun j => hx _) (List.range p) L.zeroC
  cases ht with
  | none => exact this
  | some ht => exact L.mul this (ht _ _)

theorem core_hom {q b m s N : ℕ} [NeZero q] {S : BFT q b} (hS : BflyT R S) (hN : N = q * m * s)
    {wu : ℕ → A} {wv : ℕ → C} (hw : ∀ j, R (wu j) (wv j)) (tw : ℕ → Fin b → ℕ) (hv : ∀ t < N, R (u t) (v t)) :
    ∀ t < N, R (difPure q m s (coreG S wu tw) u t) (difPure q m s (coreG S wv tw) v t) :=
  dif_stage hN (fun _ _ ys xs h i => hS ys xs _ _ (fun _ => hw _) h i) hv

section
variable {N : ℕ}

theorem mixAny_hom (L : ParLaws r R) {wu : ℕ → A} {wv : ℕ → C} (hw : ∀ j, R (wu j) (wv j)) (n : ℕ) :
    ∀ {s : ℕ} {u : ℕ → A} {v : ℕ → C}, N = n * s → 2 ≤ n → (∀ t < N, R (u t) (v t)) →
      ∀ t < N, R (mixAnyRec inv N wu n s u t) (mixAnyRec inv N wv n s v t) := by
  induction n using Nat.strong_induction_on with
  | _ n ih =>
    intro s u v hN h2 hv
    have hpr := Nat.minFac_prime (n := n) (by omega)
    have hdv := Nat.minFac_dvd n
    have : NeZero n.minFac := ⟨hpr.ne_zero⟩
    rw [mixAnyRec.eq_def inv N wu n s u, mixAnyRec.eq_def inv N wv n s v, dif_neg (by omega), dif_neg (by omega)]
    by_cases hp : n.minFac = n
    · rw [if_pos hp, if_pos hp]
      exact dif_stage (by rw [hp, Nat.mul_one]; exact hN) (fun q _ ys xs h i => L.anyG_hom (fun _ => hw _) .none q ys xs h i) hv
    · rw [if_neg hp, if_neg hp]
      obtain ⟨hN1, hN2⟩ := split_of (q := n.minFac) hN (Nat.mod_eq_zero_of_dvd hdv)
      obtain ⟨hlt, hge⟩ := div_ge hpr.two_le h2 (Nat.mod_eq_zero_of_dvd hdv) (fun e => hp e.symm)
      exact ih _ hlt hN2 hge (dif_stage hN1 (fun q _ ys xs h i => L.anyG_hom (fun _ => hw _) (.some fun _ _ => hw _) q ys xs h i) hv)

theorem mixRec_hom (L : ParLaws r R) {wu : ℕ → A} {wv : ℕ → C} (hw : ∀ j, R (wu j) (wv j)) (n : ℕ) :
    ∀ {s : ℕ} {u : ℕ → A} {v : ℕ → C}, N = n * s → 2 ≤ n → (∀ t < N, R (u t) (v t)) →
      ∀ t < N, R (mixRec inv N wu n s u t) (mixRec inv N wv n s v t) := by
  induction n using Nat.strong_induction_on with
  | _ n ih =>
    intro s u v hN h2 hv
    rw [mixRec.eq_def inv N wu n s u, mixRec.eq_def inv N wv n s v, dif_neg (by omega), dif_neg (by omega)]
    by_cases h8 : n % 8 = 0
    · rw [if_pos h8, if_pos h8]
      by_cases hn : n = 8
      · rw [if_pos hn, if_pos hn]
        subst hn
        exact core_hom (bt_end (L.bfly8 inv)) (by omega) hw _ hv
      · rw [if_neg hn, if_neg hn]
        obtain ⟨n1, n2⟩ := split_of (q := 8) hN h8
        obtain ⟨hlt, hge⟩ := div_ge (by omega) h2 h8 hn
        refine ih _ hlt n2 hge ?_
        by_cases h1 : 2 ≤ s
        · rw [if_pos h1, if_pos h1]
          exact core_hom L.bt_mix8s n1 hw _ hv
        · rw [if_neg h1, if_neg h1]
          exact core_hom L.bt_mix8one n1 hw _ hv
    rw [if_neg h8, if_neg h8]
    by_cases h4 : n % 4 = 0
    · rw [if_pos h4, if_pos h4]
      by_cases hn : n = 4
      · rw [if_pos hn, if_pos hn]
        subst hn
        exact core_hom (bt_end (L.bfly4 inv)) (by omega) hw _ hv
      · rw [if_neg hn, if_neg hn]
        obtain ⟨n1, n2⟩ := split_of (q := 4) hN h4
        obtain ⟨hlt, hge⟩ := div_ge (by omega) h2 h4 hn
        refine ih _ hlt n2 hge ?_
        by_cases h1 : 2 ≤ s
        · rw [if_pos h1, if_pos h1]
          exact core_hom L.bt_mix4s n1 hw _ hv
        · rw [if_neg h1, if_neg h1]
          exact core_hom L.bt_mix4one n1 hw _ hv
    rw [if_neg h4, if_neg h4]
    by_cases h22 : n % 2 = 0
    · rw [if_pos h22, if_pos h22]
      by_cases hn : n = 2
      · rw [if_pos hn, if_pos hn]
        subst hn
        exact core_hom (bt_end L.bfly2) (by omega) hw _ hv
      · rw [if_neg hn, if_neg hn]
        obtain ⟨n1, n2⟩ := split_of (q := 2) hN h22
        obtain ⟨hlt, hge⟩ := div_ge (by omega) h2 h22 hn
        exact ih _ hlt n2 hge (core_hom L.bt_mix2 n1 hw _ hv)
    rw [if_neg h22, if_neg h22]
    by_cases h5 : n % 5 = 0
    · rw [if_pos h5, if_pos h5]
      by_cases hn : n = 5
      · rw [if_pos hn, if_pos hn]
        subst hn
        exact core_hom L.bt_end5 (by omega) hw _ hv
      · rw [if_neg hn, if_neg hn]
        obtain ⟨n1, n2⟩ := split_of (q := 5) hN h5
        obtain ⟨hlt, hge⟩ := div_ge (by omega) h2 h5 hn
        exact ih _ hlt n2 hge (core_hom L.bt_mix5 n1 hw _ hv)
    rw [if_neg h5, if_neg h5]
    by_cases h3 : n % 3 = 0
    · rw [if_pos h3, if_pos h3]
      by_cases hn : n = 3
      · rw [if_pos hn, if_pos hn]
        subst hn
        exact core_hom L.bt_end3 (by omega) hw _ hv
      · rw [if_neg hn, if_neg hn]
        obtain ⟨n1, n2⟩ := split_of (q := 3) hN h3
        obtain ⟨hlt, hge⟩ := div_ge (by omega) h2 h3 hn
        exact ih _ hlt n2 hge (core_hom L.bt_mix3 n1 hw _ hv)
    rw [if_neg h3, if_neg h3]
    exact L.mixAny_hom hw n hN h2 hv

end

theorem mixOut_hom (L : ParLaws r R) {N : ℕ} (h2 : 2 ≤ N) (hv : ∀ t < N, R (u t) (v t)) :
    ∀ t < N, R (mixOut A inv mode N u t) (mixOut C inv mode N v t) := fun t ht =>
  L.mixScale_hom N mode (L.mixRec_hom (L.mixTab_hom N) N (s := 1) (by omega) h2 hv t ht)

/-! ### all algorithms -/

theorem algoOut_hom (L : ParLaws r R) {thr : Thr} {kind : AlgoKind} {n : ℕ} (hk : kind.Usable n) (h2 : 2 ≤ n)
    (hv : ∀ t < n, R (u t) (v t)) : ∀ t < n, R (algoOut A thr kind inv mode n u t) (algoOut C thr kind inv mode n v t) := by
  intro t ht
  unfold algoOut
  cases kind with
  | stock dit rad =>
    obtain ⟨l, rfl, hl, _⟩ := hk
    exact L.stockOut_hom rfl hl (by omega) hv t ht
  | six =>
    obtain ⟨l, rfl, hl, _⟩ := hk
    simp only [logLoop_pow]
    exact L.sixOut_hom rfl hl (by omega) hv t ht
  | mixed => exact L.mixOut_hom h2 hv t ht

theorem fftOut_hom (L : ParLaws r R) {thr : Thr} {n : ℕ} (hv : ∀ t < n, R (u t) (v t)) :
    ∀ t < n, R (fftOut A thr inv mode n u t) (fftOut C thr inv mode n v t) := by
  unfold fftOut
  cases hd : dispatch (logOf n) with
  | none => exact hv
  | some kind =>
    by_cases h2 : 2 ≤ n
    · exact L.algoOut_hom (AlgoKind.usable_of_dispatch hd) h2 hv
    · intro t ht
      obtain rfl : n = 1 := by omega
      rw [show logOf 1 = some 0 from logOf_pow 0] at hd
      cases hd


/-! ### Bluestein -/

theorem blueOut_hom (L : ParLaws r R) {thr : Thr} {n : ℕ} (h29 : n ≤ 2 ^ 29) (e : Entry) (hv : ∀ t < n, R (u t) (v t)) :
    ∀ t < n, R (blueOutF A thr e n u t) (blueOutF C thr e n v t) := by
  intro t ht
  unfold blueOutF blueRes
  by_cases hn : n < 2
  · rw [if_pos hn, if_pos hn]; exact hv t ht
  · rw [if_neg hn, if_neg hn]
    have hl : n ≤ bluePad n := by
      obtain ⟨l, hl⟩ := blueLoop_some h29
      have := (blueLoop_valid (by omega) hl).2
      rw [bluePad, hl]
      show n ≤ l
      omega
    generalize bluePad n = l at hl
    have hA : ∀ p, R (blueA A n e.isInv (blueTab A n) u p) (blueA C n e.isInv (blueTab C n) v p) := by
      intro p
      unfold blueA
      split
      · exact hv 0 (by omega)
      split
      · exact L.cmul (hv p (by assumption)) (L.blueTab_hom _ _)
      · exact L.zeroC
    have hX : ∀ p, R (blueX A n e.isInv (blueTab A n) p) (blueX C n e.isInv (blueTab C n) p) := by
      intro p
      unfold blueX
      split
      · exact L.ofD_hom (L.nat 1)
      · exact L.blueTab_hom _ _
    have hB : ∀ p, R (blueB A n l e.isInv (blueTab A n) p) (blueB C n l e.isInv (blueTab C n) p) := by
      intro p
      unfold blueB
      split
      · exact hX _
      split
      · exact hX _
      · exact L.zeroC
    have h1 := L.fftOut_hom (thr := thr) (inv := false) (mode := .scale_1) (n := l) (fun t _ => hA t)
    have h1' := L.fftOut_hom (thr := thr) (inv := false) (mode := .scale_1) (n := l) (fun t _ => hB t)
    have h2 := L.fftOut_hom (thr := thr) (inv := true) (mode := .scale_length) (fun t ht => L.mul (h1 t ht) (h1' t ht)) t (by omega)
    have h3 := L.mul h2 (L.cnj (hX t))
    generalize e.mode = mo
    cases mo
    · exact h3
    · exact L.scl (L.dsqrt (L.ddiv (L.nat 1) (L.nat _))) h3
    · exact L.scl (L.ddiv (L.nat 1) (L.nat _)) h3

/-! ### real transforms -/

section real
variable {thr : Thr} {m n : ℕ}

theorem rsc_hom (L : ParLaws r R) {c : A} {a : C} (N : ℕ) (h : R c a) : R (rsc mode N c) (rsc mode N a) := by
  cases mode
  · exact h
  · exact L.scl (L.ddiv (L.nat 1) (L.dsqrt (L.nat _))) h
  · exact L.scl (L.ddiv (L.nat 1) (L.nat _)) h

theorem rsc0_hom (L : ParLaws r R) {y : E} {x : F} (N : ℕ) (h : r y x) : r (rsc0 E mode N y) (rsc0 F mode N x) := by
  cases mode
  · exact h
  · exact L.ddiv h (L.dsqrt (L.nat _))
  · exact L.ddiv h (L.nat _)

theorem rscInv_hom (L : ParLaws r R) {c : A} {a : C} (N : ℕ) (h : R c a) : R (rscInv mode N c) (rscInv mode N a) := by
  cases mode
  · exact L.scl (L.nat 2) h
  · exact L.scl (L.ddiv (L.nat 2) (L.dsqrt (L.nat _))) h
  · exact h

theorem rfftFwd_hom (L : ParLaws r R) (hv : ∀ t < 2 * m, R (u t) (v t)) :
    ∀ t < 2 * m, R (rfftFwdOut A thr mode m u t) (rfftFwdOut C thr mode m v t) := by
  intro t ht
  have hz : ∀ p < m, R (rfftZin A u p) (rfftZin C v p) := fun p hp =>
    L.pair (L.re (hv _ (by omega))) (L.re (hv _ (by omega)))
  have hZ := L.fftOut_hom (thr := thr) (inv := false) (mode := .scale_1) hz
  unfold rfftFwdOut
  generalize fftOut A thr false .scale_1 m (rfftZin A u) = Y at hZ
  generalize fftOut C thr false .scale_1 m (rfftZin C v) = Z at hZ
  have hU := L.rfftTab_hom (2 * m)
  have hmid : ∀ t, 1 ≤ t → t < m → R (rfftMid mode m (rfftTab A (2 * m)) Y t) (rfftMid mode m (rfftTab C (2 * m)) Z t) := by
    intro t h1 ht
    unfold rfftMid
    split
    · exact L.rsc_hom _ (L.sub (hZ t ht) (L.mul (hU _) (L.sub (hZ t ht) (L.cnj (hZ _ (by omega))))))
    · exact L.rsc_hom _ (L.cnj (L.add (L.cnj (hZ t ht)) (L.mul (hU _) (L.sub (hZ _ (by omega)) (L.cnj (hZ t ht))))))
  have z0 := hZ 0 (by omega)
  unfold rfftPostOut
  split
  · exact L.ofD_hom (L.rsc0_hom _ (L.dadd (L.re z0) (L.im z0)))
  split
  · exact hmid t (by omega) (by omega)
  split
  · exact L.ofD_hom (L.rsc0_hom _ (L.dsub (L.re z0) (L.im z0)))
  · exact L.cnj (hmid _ (by omega) (by omega))

theorem rfftInv_hom (L : ParLaws r R) (hv : ∀ t ≤ m, R (u t) (v t)) :
    ∀ t < 2 * m, R (rfftInvOut A thr mode m u t) (rfftInvOut C thr mode m v t) := by
  have hpre : ∀ p < m, R (rfftPreOut mode m (rfftTab A (2 * m)) u p) (rfftPreOut mode m (rfftTab C (2 * m)) v p) := by
    intro p hp
    have a := L.cnj (hv p (by omega))
    exact L.rscInv_hom _ (L.cnj (L.sub a (L.mul (L.rfftTab_hom _ _) (L.sub a (hv (m - p) (by omega))))))
  have h := L.fftOut_hom (thr := thr) (inv := true) (mode := rfftInvMode mode) hpre
  intro t ht
  unfold rfftInvOut unpackD
  split
  · exact L.ofD_hom (L.re (h _ (by omega)))
  · exact L.ofD_hom (L.im (h _ (by omega)))

theorem rfftOut_hom (L : ParLaws r R) (hn : RealLen n) (e : Entry) (hv : ∀ t < rfftNeed e n, R (u t) (v t)) :
    ∀ t < n, R (rfftOut A thr e n u t) (rfftOut C thr e n v t) := by
  intro t ht
  unfold rfftOut
  have h0 := hv 0 (by unfold rfftNeed; split <;> omega)
  rcases hn with rfl | ⟨m, rfl, hm', h31⟩
  · rw [if_pos rfl, if_pos rfl]
    exact L.ofD_hom (L.re h0)
  · have h2 := hm'.two
    rw [if_neg (by omega : ¬ 2 * m = 1), if_neg (by omega : ¬ 2 * m = 1), show 2 * m / 2 = m by omega]
    unfold rfftNeed at hv
    split
    · rename_i he
      rw [if_pos he] at hv
      exact L.rfftInv_hom (fun t ht => hv t (by omega)) t ht
    · rename_i he
      rw [if_neg he] at hv
      exact L.rfftFwd_hom hv t ht

theorem dctOut_hom (L : ParLaws r R) (hn : RealLen n) (e : DctEntry) (hv : ∀ t < n, R (u t) (v t)) :
    ∀ t < n, R (dctOut A thr e n u t) (dctOut C thr e n v t) := by
  intro t ht
  unfold dctOut
  by_cases h1 : n = 1
  · rw [if_pos h1, if_pos h1]; exact hv t ht
  · obtain ⟨m, rfl⟩ : ∃ m, n = 2 * m := by
      rcases hn with rfl | ⟨m, rfl, -⟩
      · exact absurd rfl h1
      · exact ⟨m, rfl⟩
    rw [if_neg h1, if_neg h1, show 2 * m / 2 = m by omega]
    have hV := L.dctTab_hom (2 * m)
    by_cases he : e.isInv = true
    · rw [if_pos he, if_pos he]
      have hp : ∀ t < 2 * m, R (dctPreV A (2 * m) (dctTab A (2 * m)) u t) (dctPreV C (2 * m) (dctTab C (2 * m)) v t) := by
        intro t ht
        unfold dctPreV
        split
        · exact L.ofD_hom (L.re (hv 0 (by omega)))
        · exact L.cmul (hV _) (L.pair (L.re (hv t ht)) (L.dneg (L.re (hv _ (by omega)))))
      have h := L.rfftOut_hom (thr := thr) hn e.real (fun t ht => hp t (lt_of_lt_of_le ht (rfftNeed_le hn)))
      unfold dctScat
      split
      · exact h _ (by omega)
      · exact h _ (by omega)
    · rw [if_neg he, if_neg he]
      have hg : ∀ t < 2 * m, R (dctGath m u t) (dctGath m v t) := by
        intro q hq
        unfold dctGath
        split
        · exact hv _ (by omega)
        · exact hv _ (by omega)
      have h := L.rfftOut_hom (thr := thr) hn e.real (fun t ht => hg t (lt_of_lt_of_le ht (rfftNeed_le hn)))
      have hh : ∀ {c d : A} {a b : C}, R c a → R d b → R (haddpz c d) (haddpz a b) := fun ha hb =>
        L.pair (L.dadd (L.re ha) (L.im ha)) (L.dadd (L.re hb) (L.im hb))
      unfold dctTw
      split
      · exact L.ofD_hom (L.re (hh (L.muld (hV _) (h t ht)) (L.muld (hV _) (h (t + 1) (by omega)))))
      · exact L.ofD_hom (L.im (hh (L.muld (hV _) (h (t - 1) (by omega))) (L.muld (hV _) (h t ht))))

end real

end ParLaws
end OTFFT
