/-
Error analysis, independent of how the arithmetic is implemented: how the errors of the inputs of a butterfly or of a
stage propagate to its results.
-/
import Verif.Proof.Engine

namespace OTFFT

/-- scale factor of a mode -/
noncomputable def scR (N : ℕ) (mode : ScaleMode) : ℝ :=
  match mode with
  | .scale_1 => 1
  | .scale_unitary => 1 / Real.sqrt N
  | .scale_length => 1 / (N : ℝ)

theorem scC_eq (N : ℕ) (mode : ScaleMode) : scC N mode = (scR N mode : ℂ) := by
  cases mode <;> simp [scC, scR]

/-- roundings in twiddle factor `k` of `r` computed as a power of one table entry -/
def twK (r : ℕ) : ℕ := if r = 4 then 12 else if r = 8 then 9 else if r = 16 then 7 else 31

/-- What the error analysis uses. `Ap a a' M k`: `a'` is a computed value of `a`, `M` bounds `a`, there were at most `k`
roundings. Magnitudes are between `m0` and `G`. -/
structure ApLaws {F C : Type} [DArith F] [CArith F C] (Ap : ℂ → C → ℝ → ℕ → Prop) (m0 G : ℝ) : Prop where
  m0_pos : 0 < m0
  m0_le : m0 ≤ 1 / 2 ^ 40
  G_ge : 2 ^ 40 ≤ G
  pos : ∀ {a a' M k}, Ap a a' M k → m0 ≤ M
  mono : ∀ {a a' M k M' k'}, Ap a a' M k → M ≤ M' → k ≤ k' → Ap a a' M' k'
  add : ∀ {a a' b b' M1 M2 k1 k2}, Ap a a' M1 k1 → Ap b b' M2 k2 → Ap (addpz a b) (addpz a' b') (M1 + M2) (max k1 k2 + 1)
  sub : ∀ {a a' b b' M1 M2 k1 k2}, Ap a a' M1 k1 → Ap b b' M2 k2 → Ap (subpz a b) (subpz a' b') (M1 + M2) (max k1 k2 + 1)
  cnj : ∀ {a a' M k}, Ap a a' M k → Ap (cnjpz a) (cnjpz a') M k
  jx : ∀ {a a' M k}, Ap a a' M k → Ap (jxpz a) (jxpz a') M k
  v8 : ∀ {a a' M k}, Ap a a' M k → Ap (v8xpz a) (v8xpz a') M (k + 4)
  w8 : ∀ {a a' M k}, Ap a a' M k → Ap (w8xpz a) (w8xpz a') M (k + 4)
  h1 : ∀ {a a' M k}, Ap a a' M k → Ap (h1xpz a) (h1xpz a') M (k + 5)
  h3 : ∀ {a a' M k}, Ap a a' M k → Ap (h3xpz a) (h3xpz a') M (k + 5)
  hf : ∀ {a a' M k}, Ap a a' M k → Ap (hfxpz a) (hfxpz a') M (k + 5)
  hd : ∀ {a a' M k}, Ap a a' M k → Ap (hdxpz a) (hdxpz a') M (k + 5)
  mul : ∀ {a a' b b' M1 M2 k1 k2}, Ap a a' M1 k1 → Ap b b' M2 k2 → M1 ≤ G → M2 ≤ G → m0 ≤ M1 * M2 →
    Ap (mulpz a b) (mulpz a' b') (M1 * M2) (k1 + k2 + 4)
  tw_mul : ∀ {a a' b b' M k1 k2}, Ap a a' 1 k1 → Ap b b' M k2 → Ap (mulpz a b) (mulpz a' b') M (k1 + k2 + 4)
  mul_tw : ∀ {a a' b b' M k1 k2}, Ap a a' M k1 → Ap b b' 1 k2 → Ap (mulpz a b) (mulpz a' b') M (k1 + k2 + 4)
  scale : ∀ {a a' M k} (N : ℕ) (mode : ScaleMode), 1 ≤ N → N ≤ 2 ^ 31 → Ap a a' M k → M ≤ G → m0 ≤ scR N mode * M →
    Ap (scalepz N mode a) (scalepz N mode a') (scR N mode * M) (k + 6)
  mixScale : ∀ {a a' M k} (N : ℕ) (mode : ScaleMode), 1 ≤ N → N ≤ 2 ^ 31 → Ap a a' M k → M ≤ G → m0 ≤ scR N mode * M →
    Ap (mixScale N mode a) (mixScale N mode a') (scR N mode * M) (k + 6)
  zero_add : ∀ {a a' M k}, Ap a a' M k → Ap (addpz (CArith.cmk (fofNat 0) (fofNat 0)) a)
    (addpz (CArith.cmk (fofNat 0) (fofNat 0)) a') M (k + 1)
  wr1 : ∀ {N p r : ℕ}, N ≤ 2 ^ 31 → r = 4 ∨ r = 8 ∨ r = 16 → r * (p + 1) ≤ N →
    Ap (wr1Val ℂ N p) (wr1Val C N p) 1 (twK r)
  wt : ∀ {N r p : ℕ} {k : Fin (r - 1)}, N ≤ 2 ^ 31 → r * (p + 1) ≤ N → Ap (wtVal ℂ N r p k) (wtVal C N r p k) 1 37
  nxn : ∀ {n a b : ℕ}, n * n ≤ 2 ^ 31 → a < n → b < n → Ap (nxnVal ℂ n a b) (nxnVal C n a b) 1 37
  mixTab : ∀ {n p : ℕ}, 1 ≤ n → n ≤ 2 ^ 31 → p ≤ n → Ap (mixTabVal ℂ n p) (mixTabVal C n p) 1 29
  mixTab8 : ∀ {n p : ℕ}, 1 ≤ n → n ≤ 2 ^ 31 → 8 * (p + 1) ≤ n → Ap (mixTabVal ℂ n p) (mixTabVal C n p) 1 7
  mixTab4 : ∀ {n p : ℕ}, 1 ≤ n → n ≤ 2 ^ 31 → 4 * (p + 1) ≤ n → Ap (mixTabVal ℂ n p) (mixTabVal C n p) 1 10

namespace ApLaws
variable {F C : Type} [DArith F] [CArith F C] {Ap : ℂ → C → ℝ → ℕ → Prop} {m0 G : ℝ}

theorem nonneg (L : ApLaws Ap m0 G) {a a' M k} (h : Ap a a' M k) : 0 ≤ M := le_trans L.m0_pos.le (L.pos h)

/-! ### butterflies -/

/-- a butterfly of radix `r` adds `cost` roundings -/
def Bfly (Ap : ℂ → C → ℝ → ℕ → Prop) {r : ℕ} (B : BF r) (cost : ℕ) : Prop :=
  ∀ (x : Fin r → ℂ) (x' : Fin r → C) (M : ℝ) (k : ℕ), (∀ j, Ap (x j) (x' j) M k) →
    ∀ j, Ap (B.fn x j) (B.fn x' j) (r * M) (k + cost)

/-- proves `Ap t t' _ _` for a term built from the operations -/
macro "ap_steps" L:term "," h:term : tactic =>
  `(tactic| repeat' first
    | exact $h _
    | apply ApLaws.add $L
    | apply ApLaws.sub $L
    | apply ApLaws.jx $L
    | apply ApLaws.v8 $L
    | apply ApLaws.w8 $L
    | apply ApLaws.h1 $L
    | apply ApLaws.h3 $L
    | apply ApLaws.hf $L
    | apply ApLaws.hd $L)

theorem bfly2 (L : ApLaws Ap m0 G) : Bfly Ap bf2 1 := by
  intro x x' M k h j
  fin_cases j
  · exact L.mono (L.add (h 0) (h 1)) (by push_cast; linarith) (by simp)
  · exact L.mono (L.sub (h 0) (h 1)) (by push_cast; linarith) (by simp)

theorem bfly4 (L : ApLaws Ap m0 G) (inv : Bool) : Bfly Ap (bf4 inv) 2 := by
  intro x x' M k h j
  cases inv <;> fin_cases j <;> (
    simp only [bf4, bf4fwd, bf4inv, if_true, if_false, Bool.false_eq_true]
    simp only [Fin.zero_eta, Fin.mk_one, Fin.reduceFinMk, Matrix.cons_val]
    apply L.mono
    · ap_steps L, h
    · push_cast; linarith
    · omega)

theorem bfly8 (L : ApLaws Ap m0 G) (inv : Bool) : Bfly Ap (bf8 inv) 7 := by
  intro x x' M k h j
  cases inv <;> fin_cases j <;> (
    simp only [bf8, bf8fwd, bf8inv, if_true, if_false, Bool.false_eq_true]
    simp only [Fin.zero_eta, Fin.mk_one, Fin.reduceFinMk, Matrix.cons_val]
    apply L.mono
    · ap_steps L, h
    · push_cast; linarith
    · omega)

theorem bfly16 (L : ApLaws Ap m0 G) (inv : Bool) : Bfly Ap (bf16 inv) 13 := by
  intro x x' M k h j
  cases inv <;> fin_cases j <;> (
    simp only [bf16, bf16fwd, bf16inv, if_true, if_false, Bool.false_eq_true]
    simp only [Fin.zero_eta, Fin.mk_one, Fin.reduceFinMk, Matrix.cons_val]
    apply L.mono
    · ap_steps L, h
    · push_cast; linarith
    · omega)

/-! ### stages -/

section stage
variable {r m s N : ℕ} [NeZero r] {v : ℕ → ℂ} {v' : ℕ → C} {M M2 : ℝ} {k k2 : ℕ}

/-- a DIF stage whose butterfly turns `(M, k)` into `(M2, k2)` -/
theorem dif_stage {Gr : ℕ → (Fin r → ℂ) → Fin r → ℂ} {Gr' : ℕ → (Fin r → C) → Fin r → C} (hN : N = r * m * s)
    (hG : ∀ p < m, ∀ xs xs', (∀ j, Ap (xs j) (xs' j) M k) → ∀ i, Ap (Gr p xs i) (Gr' p xs' i) M2 k2)
    (hv : ∀ t < N, Ap (v t) (v' t) M k) :
    ∀ t < N, Ap (difPure r m s Gr v t) (difPure r m s Gr' v' t) M2 k2 := by
  intro t ht
  have hr : 0 < r := Nat.pos_of_ne_zero (NeZero.ne r)
  have hs : 0 < s := Nat.pos_of_ne_zero (by rintro rfl; omega)
  have hm : t / s / r < m := by
    apply Nat.div_lt_of_lt_mul
    apply Nat.div_lt_of_lt_mul
    rw [hN, Nat.mul_comm (r * m) s] at ht
    exact ht
  apply hG _ hm
  intro j
  apply hv
  have h1 : t % s < s := Nat.mod_lt _ hs
  have h2 : t / s / r + m * j.val + 1 ≤ m * r := by
    calc t / s / r + m * j.val + 1 ≤ m * j.val + m := by omega
      _ = m * (j.val + 1) := by ring
      _ ≤ m * r := Nat.mul_le_mul_left _ j.isLt
  calc t % s + s * (t / s / r + m * j.val) < s * (t / s / r + m * j.val + 1) := by rw [Nat.mul_add s _ 1]; omega
    _ ≤ s * (m * r) := Nat.mul_le_mul_left _ h2
    _ = N := by rw [hN]; ring

/-- the same for DIT -/
theorem dit_stage {Gr : ℕ → (Fin r → ℂ) → Fin r → ℂ} {Gr' : ℕ → (Fin r → C) → Fin r → C} (hN : N = r * m * s)
    (hG : ∀ p < m, ∀ xs xs', (∀ j, Ap (xs j) (xs' j) M k) → ∀ i, Ap (Gr p xs i) (Gr' p xs' i) M2 k2)
    (hv : ∀ t < N, Ap (v t) (v' t) M k) :
    ∀ t < N, Ap (ditPure r m s Gr v t) (ditPure r m s Gr' v' t) M2 k2 := by
  intro t ht
  have hs : 0 < s := Nat.pos_of_ne_zero (by rintro rfl; omega)
  have hm0 : 0 < m := Nat.pos_of_ne_zero (by rintro rfl; simp at hN; omega)
  have hm : t / s % m < m := Nat.mod_lt _ hm0
  apply hG _ hm
  intro j
  apply hv
  have h1 : t % s < s := Nat.mod_lt _ hs
  have h2 : r * (t / s % m) + j.val + 1 ≤ m * r := by
    calc r * (t / s % m) + j.val + 1 ≤ r * (t / s % m) + r := by have := j.isLt; omega
      _ = r * (t / s % m + 1) := by ring
      _ ≤ r * m := Nat.mul_le_mul_left _ hm
      _ = m * r := Nat.mul_comm _ _
  calc t % s + s * (r * (t / s % m) + j.val) < s * (r * (t / s % m) + j.val + 1) := by
        rw [Nat.mul_add s _ 1]; omega
    _ ≤ s * (m * r) := Nat.mul_le_mul_left _ h2
    _ = N := by rw [hN]; ring

end stage

theorem cj_ap (L : ApLaws Ap m0 G) {a a' M k} (inv : Bool) (h : Ap a a' M k) : Ap (cj inv a) (cj inv a') M k := by
  cases inv
  · exact h
  · exact L.cnj h

theorem wpow_ap (L : ApLaws Ap m0 G) {w w' k0} (h : Ap w w' 1 k0) (j : ℕ) (hj : 1 ≤ j) :
    Ap (wpow w j) (wpow w' j) 1 (j * (k0 + 4) - 4) := by
  induction j using Nat.strong_induction_on with
  | _ j ih =>
    rw [wpow.eq_def w j, wpow.eq_def w' j]
    by_cases h1 : j ≤ 1
    · rw [dif_pos h1, dif_pos h1]
      exact L.mono h le_rfl (by obtain rfl : j = 1 := (by omega); omega)
    · rw [dif_neg h1, dif_neg h1]
      have ha := ih (j / 2) (by omega) (by omega)
      by_cases h2 : j % 2 = 0
      · rw [if_pos h2, if_pos h2]
        refine L.mono (L.tw_mul ha ha) le_rfl ?_
        have e : j * (k0 + 4) = 2 * (j / 2 * (k0 + 4)) := by
          rw [← Nat.mul_assoc]; congr 1; omega
        have : 1 * (k0 + 4) ≤ j / 2 * (k0 + 4) := Nat.mul_le_mul_right _ (by omega)
        omega
      · rw [if_neg h2, if_neg h2]
        have hb := ih (j / 2 + 1) (by omega) (by omega)
        refine L.mono (L.tw_mul ha hb) le_rfl ?_
        have e : j * (k0 + 4) = j / 2 * (k0 + 4) + (j / 2 + 1) * (k0 + 4) := by
          rw [← Nat.add_mul]; congr 1; omega
        have : 1 * (k0 + 4) ≤ j / 2 * (k0 + 4) := Nat.mul_le_mul_right _ (by omega)
        have : 1 * (k0 + 4) ≤ (j / 2 + 1) * (k0 + 4) := Nat.mul_le_mul_right _ (by omega)
        omega

section
variable {r : ℕ} {B : BF r} {cost w : ℕ} {M : ℝ} {k : ℕ}

theorem difOut_ap (L : ApLaws Ap m0 G) (hB : Bfly Ap B cost) {T : Fin (r - 1) → ℂ} {T' : Fin (r - 1) → C}
    (hT : ∀ i, Ap (T i) (T' i) 1 w) (xs : Fin r → ℂ) (xs' : Fin r → C) (h : ∀ j, Ap (xs j) (xs' j) M k) (i : Fin r) :
    Ap (difOut B xs T i) (difOut B xs' T' i) (r * M) (k + (cost + w + 4)) := by
  unfold difOut
  by_cases h0 : i.val = 0
  · rw [dif_pos h0, dif_pos h0]
    exact L.mono (hB xs xs' M k h i) le_rfl (by omega)
  · rw [dif_neg h0, dif_neg h0]
    exact L.mono (L.tw_mul (hT _) (hB xs xs' M k h i)) le_rfl (by omega)

theorem ditOut_ap (L : ApLaws Ap m0 G) (hB : Bfly Ap B cost) {T : Fin (r - 1) → ℂ} {T' : Fin (r - 1) → C}
    (hT : ∀ i, Ap (T i) (T' i) 1 w) (xs : Fin r → ℂ) (xs' : Fin r → C) (h : ∀ j, Ap (xs j) (xs' j) M k) (i : Fin r) :
    Ap (ditOut B xs T i) (ditOut B xs' T' i) (r * M) (k + (cost + w + 4)) := by
  unfold ditOut
  refine L.mono (hB _ _ M (k + w + 4) (fun j => ?_) i) le_rfl (by omega)
  by_cases h0 : j.val = 0
  · simp only [h0, dite_true]
    exact L.mono (h j) le_rfl (by omega)
  · simp only [h0, dite_false]
    exact L.mono (L.tw_mul (hT _) (h j)) le_rfl (by omega)

end

/-! ### Stockham transforms -/

/-- roundings in a twiddle factor of the Stockham kernels -/
def stTw (path : Path) (r : ℕ) : ℕ :=
  match path with
  | .serial => 37
  | .omp => (r - 1) * (twK r + 4) - 4

theorem stockhamTw_ap (L : ApLaws Ap m0 G) {path : Path} {r N p : ℕ} (inv : Bool) (hN : N ≤ 2 ^ 31)
    (hr : r = 4 ∨ r = 8 ∨ r = 16) (hp : r * (p + 1) ≤ N) (i : Fin (r - 1)) :
    Ap (stockhamTw ℂ path r N inv p i) (stockhamTw C path r N inv p i) 1 (stTw path r) := by
  cases path with
  | serial => exact L.cj_ap inv (L.wt hN hp)
  | omp =>
    refine L.mono (L.wpow_ap (L.cj_ap inv (L.wr1 hN hr hp)) (i.val + 1) (by omega)) le_rfl ?_
    unfold stTw
    exact Nat.sub_le_sub_right (Nat.mul_le_mul_right _ (by have := i.isLt; omega)) _

section stock
variable {N : ℕ} {mode : ScaleMode} {inv : Bool} {v : ℕ → ℂ} {v' : ℕ → C} {M : ℝ} {k : ℕ}

theorem scR_pos (N : ℕ) (mode : ScaleMode) (hN : 1 ≤ N) : 0 < scR N mode := by
  have : (0:ℝ) < N := by exact_mod_cast hN
  cases mode <;> simp only [scR] <;> positivity

theorem scR_le_one' (N : ℕ) (mode : ScaleMode) (h1 : 1 ≤ N) : scR N mode ≤ 1 := by
  have hN : (1:ℝ) ≤ N := by exact_mod_cast h1
  cases mode
  · exact le_rfl
  · simp only [scR]
    have h := Real.one_le_sqrt.mpr hN
    rw [div_le_one (by linarith)]; exact h
  · simp only [scR]
    rw [div_le_one (by linarith)]; exact hN

/-- a stage that scales its operands -/
theorem end_ap (L : ApLaws Ap m0 G) {r s : ℕ} [NeZero r] {B : BF r} {cost : ℕ} (hB : Bfly Ap B cost)
    (hN : N = r * s) (h1 : 1 ≤ N) (h31 : N ≤ 2 ^ 31) (hG : M ≤ G) (hm : m0 ≤ scR N mode * M)
    (hv : ∀ t < N, Ap (v t) (v' t) M k) :
    ∀ t < N, Ap (difPure r 1 s (endG B (r * s) mode) v t) (difPure r 1 s (endG B (r * s) mode) v' t)
      (r * (scR N mode * M)) (k + (cost + 6)) := by
  refine dif_stage (by rw [hN]; ring) (fun p _ xs xs' h i => ?_) hv
  unfold endG
  rw [← hN]
  exact L.mono (hB _ _ (scR N mode * M) (k + 6) (fun j => L.scale N mode h1 h31 (h j) hG hm) i) le_rfl (by omega)

theorem endPure_ap (L : ApLaws Ap m0 G) {n s : ℕ} (hn : n = 2 ∨ n = 4 ∨ n = 8 ∨ n = 16)
    (hN : N = n * s) (h1 : 1 ≤ N) (h31 : N ≤ 2 ^ 31) (hG : M ≤ G) (hm : m0 ≤ scR N mode * M)
    (hv : ∀ t < N, Ap (v t) (v' t) M k) :
    ∀ t < N, Ap (endPure inv mode n s v t) (endPure inv mode n s v' t) (n * (scR N mode * M)) (k + 19) := by
  intro t ht
  unfold endPure
  rcases hn with rfl | rfl | rfl | rfl
  · exact L.mono (L.end_ap L.bfly2 hN h1 h31 hG hm hv t ht) le_rfl (by omega)
  · exact L.mono (L.end_ap (L.bfly4 inv) hN h1 h31 hG hm hv t ht) le_rfl (by omega)
  · exact L.mono (L.end_ap (L.bfly8 inv) hN h1 h31 hG hm hv t ht) le_rfl (by omega)
  · exact L.mono (L.end_ap (L.bfly16 inv) hN h1 h31 hG hm hv t ht) le_rfl (by omega)

section recs
variable {r e w cost a : ℕ} [NeZero r] {B : BF r} {T : ℕ → Fin (r - 1) → ℂ} {T' : ℕ → Fin (r - 1) → C}

/-- bounds of the recursions -/
structure RecOK (Ap : ℂ → C → ℝ → ℕ → Prop) (r e w cost a N : ℕ) (B : BF r) (T : ℕ → Fin (r - 1) → ℂ)
    (T' : ℕ → Fin (r - 1) → C) : Prop where
  re : r = 2 ^ e
  e2 : 2 ≤ e
  e4 : e ≤ 4
  bf : Bfly Ap B cost
  tw : ∀ p, r * (p + 1) ≤ N → ∀ i, Ap (T p i) (T' p i) 1 w
  le : cost + w + 4 ≤ a * e
  a19 : 19 ≤ a

theorem RecOK.r16 {N : ℕ} (h : RecOK Ap r e w cost a N B T T') : 2 ≤ r ∧ r ≤ 16 := by
  rw [h.re]
  have h1 : 2 ^ 1 ≤ 2 ^ e := Nat.pow_le_pow_right (by omega) (by have := h.e2; omega)
  have h2 : 2 ^ e ≤ 2 ^ 4 := Nat.pow_le_pow_right (by omega) h.e4
  omega

/-- one step of the recursions -/
theorem RecOK.split {N l n s : ℕ} (h : RecOK Ap r e w cost a N B T T') (hn : n = 2 ^ l) (hN : N = n * s)
    (h1 : ¬ n ≤ r) (hs : 1 ≤ s) : e < l ∧ n / r = 2 ^ (l - e) ∧ N = r * (n / r) * s ∧ N = n / r * (r * s) ∧
      (n : ℝ) = r * (n / r : ℕ) ∧ ∀ p < n / r, r * (s * p + 1) ≤ N := by
  have hr := h.re
  have hel : e < l := by
    by_contra hc
    have : 2 ^ l ≤ 2 ^ e := Nat.pow_le_pow_right (by omega) (by omega)
    omega
  have hd : n / r = 2 ^ (l - e) := by
    rw [hn, hr, Nat.pow_div (by omega) (by omega)]
  have hm : n = r * (n / r) := by
    rw [hd, hn, hr, ← pow_add]; congr 1; omega
  refine ⟨hel, hd, by rw [← hm]; exact hN, ?_, by exact_mod_cast hm, fun p hp => ?_⟩
  · rw [hN]
    conv_lhs => rw [hm]
    ring
  · rw [hN, hm]
    calc r * (s * p + 1) ≤ r * (s * (p + 1)) := Nat.mul_le_mul_left _ (by rw [Nat.mul_add]; omega)
      _ = r * (p + 1) * s := by ring
      _ ≤ r * (n / r) * s := Nat.mul_le_mul_right _ (Nat.mul_le_mul_left _ hp)

theorem difRec_ap (L : ApLaws Ap m0 G) (hR : RecOK Ap r e w cost a N B T T') (h1 : 1 ≤ N) (h31 : N ≤ 2 ^ 31) (l : ℕ) :
    ∀ {n s : ℕ} {v : ℕ → ℂ} {v' : ℕ → C} {M : ℝ} {k : ℕ}, n = 2 ^ l → 1 ≤ l → N = n * s → n * M ≤ G →
      m0 ≤ scR N mode * M → (∀ t < N, Ap (v t) (v' t) M k) →
      ∀ t < N, Ap (difRec r B inv T mode n s v t) (difRec r B inv T' mode n s v' t) (n * (scR N mode * M))
        (k + a * l) := by
  induction l using Nat.strong_induction_on with
  | _ l ih =>
    intro n s v v' M k hn hl hN hG hm hv t ht
    have hr := hR.r16
    have h0 : 0 ≤ M := L.nonneg (hv 0 (by omega))
    have hs : 1 ≤ s := Nat.pos_of_ne_zero (by rintro rfl; omega)
    have hn1 : 1 ≤ n := by rw [hn]; exact Nat.one_le_two_pow
    have hn1' : (1:ℝ) ≤ n := by exact_mod_cast hn1
    rw [difRec.eq_def r B inv T, difRec.eq_def r B inv T']
    by_cases hc : n ≤ r ∨ r < 2
    · rw [dif_pos hc, dif_pos hc]
      have hnr : n ≤ 16 := by omega
      have := L.endPure_ap (inv := inv) (mode := mode) (n := n) (s := s) (by rw [hn] at hnr ⊢; exact pow_le_16 hl hnr) hN h1 h31
        (by nlinarith) hm hv t ht
      refine L.mono this le_rfl ?_
      have := hR.a19
      have : a * 1 ≤ a * l := Nat.mul_le_mul_left _ hl
      omega
    · rw [dif_neg hc, dif_neg hc]
      obtain ⟨hel, hd, hN1, hN2, hnr, hp⟩ := hR.split hn hN (by omega) hs
      have e2 := hR.e2
      have key := ih (l - e) (by omega) (n := n / r) (s := r * s) (M := r * M) (k := k + (cost + w + 4)) hd (by omega)
        hN2 (by rw [hnr] at hG; linarith)
        (le_trans hm (mul_le_mul_of_nonneg_left (by
          have : (1:ℝ) ≤ r := by exact_mod_cast (by omega : 1 ≤ r)
          nlinarith) (scR_pos N mode h1).le))
        (dif_stage hN1 (fun p hp' xs xs' h i => L.difOut_ap hR.bf (hR.tw _ (hp p hp')) xs xs' h i) hv) t ht
      refine L.mono key (by rw [hnr]; linarith) ?_
      have : a * l = a * e + a * (l - e) := by rw [← Nat.mul_add]; congr 1; omega
      have := hR.le
      omega

theorem ditRec_ap (L : ApLaws Ap m0 G) (hR : RecOK Ap r e w cost a N B T T') (h1 : 1 ≤ N) (h31 : N ≤ 2 ^ 31) (l : ℕ) :
    ∀ {n s : ℕ} {v : ℕ → ℂ} {v' : ℕ → C} {M : ℝ} {k : ℕ}, n = 2 ^ l → 1 ≤ l → N = n * s → n * M ≤ G →
      m0 ≤ scR N mode * M → (∀ t < N, Ap (v t) (v' t) M k) →
      ∀ t < N, Ap (ditRec r B inv T mode n s v t) (ditRec r B inv T' mode n s v' t) (n * (scR N mode * M))
        (k + a * l) := by
  induction l using Nat.strong_induction_on with
  | _ l ih =>
    intro n s v v' M k hn hl hN hG hm hv t ht
    have hr := hR.r16
    have h0 : 0 ≤ M := L.nonneg (hv 0 (by omega))
    have hs : 1 ≤ s := Nat.pos_of_ne_zero (by rintro rfl; omega)
    have hn1 : 1 ≤ n := by rw [hn]; exact Nat.one_le_two_pow
    have hn1' : (1:ℝ) ≤ n := by exact_mod_cast hn1
    rw [ditRec.eq_def r B inv T, ditRec.eq_def r B inv T']
    by_cases hc : n ≤ r ∨ r < 2
    · rw [dif_pos hc, dif_pos hc]
      have hnr : n ≤ 16 := by omega
      have := L.endPure_ap (inv := inv) (mode := mode) (n := n) (s := s) (by rw [hn] at hnr ⊢; exact pow_le_16 hl hnr) hN h1 h31
        (by nlinarith) hm hv t ht
      refine L.mono this le_rfl ?_
      have := hR.a19
      have : a * 1 ≤ a * l := Nat.mul_le_mul_left _ hl
      omega
    · rw [dif_neg hc, dif_neg hc]
      obtain ⟨hel, hd, hN1, hN2, hnr, hp⟩ := hR.split hn hN (by omega) hs
      have e2 := hR.e2
      have hr1 : (1:ℝ) ≤ r := by exact_mod_cast (by omega : 1 ≤ r)
      have key := ih (l - e) (by omega) (n := n / r) (s := r * s) (v := v) (v' := v') (M := M) (k := k) hd (by omega)
        hN2 (by
          have : ((n / r : ℕ) : ℝ) * M ≤ n * M := by
            apply mul_le_mul_of_nonneg_right _ h0
            exact_mod_cast Nat.div_le_self n r
          linarith) hm hv
      refine L.mono (dit_stage hN1 (fun p hp' xs xs' h i => L.ditOut_ap hR.bf (hR.tw _ (hp p hp')) xs xs' h i) key t ht)
        (by rw [hnr]; linarith) ?_
      have : a * l = a * e + a * (l - e) := by rw [← Nat.mul_add]; congr 1; omega
      have := hR.le
      omega

end recs

end stock

end ApLaws
end OTFFT
