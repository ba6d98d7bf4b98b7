/-
Error analysis in the 2-norm: stages and Stockham transforms.
-/
import Verif.Proof.L2
import Verif.Proof.ApOut

namespace OTFFT

open Finset

/-! ### butterflies with a bound for every operand -/

namespace ApLaws
variable {F C : Type} [DArith F] [CArith F C] {Ap : ℂ → C → ℝ → ℕ → Prop} {m0 G : ℝ}

/-- a butterfly of radix `r` adds `cost` roundings, relative to the sum of the bounds of its operands -/
def BflyM (Ap : ℂ → C → ℝ → ℕ → Prop) {r : ℕ} (B : BF r) (cost : ℕ) : Prop :=
  ∀ (x : Fin r → ℂ) (x' : Fin r → C) (M : Fin r → ℝ) (k : ℕ), (∀ j, Ap (x j) (x' j) (M j) k) →
    ∀ j, Ap (B.fn x j) (B.fn x' j) (∑ j, M j) (k + cost)

theorem bflyM2 (L : ApLaws Ap m0 G) : BflyM Ap bf2 1 := by
  intro x x' M k h j
  fin_cases j
  · exact L.mono (L.add (h 0) (h 1)) (by simp) (by simp)
  · exact L.mono (L.sub (h 0) (h 1)) (by simp) (by simp)

theorem bflyM4 (L : ApLaws Ap m0 G) (inv : Bool) : BflyM Ap (bf4 inv) 2 := by
  intro x x' M k h j
  have hs := Fin.sum_univ_four M
  cases inv <;> fin_cases j <;> (
    simp only [bf4, bf4fwd, bf4inv, if_true, if_false, Bool.false_eq_true]
    simp only [Fin.zero_eta, Fin.mk_one, Fin.reduceFinMk, Matrix.cons_val]
    apply L.mono
    · ap_steps L, h
    · rw [hs]; linarith
    · omega)

theorem bflyM8 (L : ApLaws Ap m0 G) (inv : Bool) : BflyM Ap (bf8 inv) 7 := by
  intro x x' M k h j
  have hs := Fin.sum_univ_eight M
  cases inv <;> fin_cases j <;> (
    simp only [bf8, bf8fwd, bf8inv, if_true, if_false, Bool.false_eq_true]
    simp only [Fin.zero_eta, Fin.mk_one, Fin.reduceFinMk, Matrix.cons_val]
    apply L.mono
    · ap_steps L, h
    · rw [hs]; linarith
    · omega)

theorem sum16 (M : Fin 16 → ℝ) : ∑ j, M j = M 0 + M 1 + M 2 + M 3 + M 4 + M 5 + M 6 + M 7 + M 8 + M 9 + M 10 + M 11 +
    M 12 + M 13 + M 14 + M 15 := by
  simp only [Fin.sum_univ_succ, Fin.sum_univ_zero, Fin.succ_zero_eq_one]
  ring_nf
  rfl

theorem bflyM16 (L : ApLaws Ap m0 G) (inv : Bool) : BflyM Ap (bf16 inv) 13 := by
  intro x x' M k h j
  have hs := sum16 M
  cases inv <;> fin_cases j <;> (
    simp only [bf16, bf16fwd, bf16inv, if_true, if_false, Bool.false_eq_true]
    simp only [Fin.zero_eta, Fin.mk_one, Fin.reduceFinMk, Matrix.cons_val]
    apply L.mono
    · ap_steps L, h
    · rw [hs]; linarith
    · omega)

end ApLaws

/-! ### index sets -/

theorem sum_pm (r m : ℕ) (f : ℕ → ℝ) : ∑ J ∈ range (r * m), f J = ∑ p ∈ range m, ∑ j ∈ range r, f (p + m * j) := by
  rw [sum_comm, Nat.mul_comm]
  induction r with
  | zero => simp
  | succ r ih =>
    rw [sum_range_succ, ← ih, Nat.mul_succ, sum_range_add]
    congr 1
    refine sum_congr rfl fun p _ => by rw [Nat.add_comm]

theorem sum_rows (b n : ℕ) (f : ℕ → ℝ) : ∑ t ∈ range (b * n), f t = ∑ i ∈ range b, ∑ j ∈ range n, f (i * n + j) := by
  rw [sum_pm b n, sum_comm]
  refine sum_congr rfl fun i _ => sum_congr rfl fun j _ => ?_
  rw [Nat.add_comm, Nat.mul_comm]

namespace Flt.Op
variable {F : Type} [FArith F] {c : Flt F}

theorem cutPM (r m s : ℕ) : Cut (range (r * m * s)) (range s ×ˢ range m) (univ : Finset (Fin r))
    (fun b j => b.1 + s * (b.2 + m * j.val)) := by
  refine ⟨?_, ?_, ?_⟩
  · rintro ⟨q, p⟩ hb j -
    simp only [mem_product, mem_range] at hb ⊢
    have h1 : p + m * j.val < m * r := idx_lt hb.2 j.isLt
    have := idx_lt hb.1 h1
    rwa [show s * (m * r) = r * m * s by ring] at this
  · intro t ht
    simp only [mem_range] at ht
    have hs : 0 < s := Nat.pos_of_ne_zero (by rintro rfl; simp at ht)
    have hm : 0 < m := Nat.pos_of_ne_zero (by rintro rfl; simp at ht)
    refine ⟨(t % s, t / s % m), by simp [Nat.mod_lt _ hs, Nat.mod_lt _ hm], ⟨t / s / m, ?_⟩, mem_univ _, ?_⟩
    · rw [Nat.div_div_eq_div_mul]
      exact Nat.div_lt_of_lt_mul (by rw [show s * m * r = r * m * s by ring]; exact ht)
    · simp only
      rw [Nat.mod_add_div, Nat.mod_add_div]
  · intro h
    rw [sum_pm (r * m) s, sum_product]
    refine sum_congr rfl fun q _ => ?_
    rw [sum_pm r m]
    refine sum_congr rfl fun p _ => ?_
    rw [Finset.sum_range]

theorem cutRP (r m s : ℕ) : Cut (range (r * m * s)) (range s ×ˢ range m) (univ : Finset (Fin r))
    (fun b j => b.1 + s * (r * b.2 + j.val)) := by
  refine ⟨?_, ?_, ?_⟩
  · rintro ⟨q, p⟩ hb j -
    simp only [mem_product, mem_range] at hb ⊢
    have h1 : j.val + r * p < r * m := idx_lt j.isLt hb.2
    have := idx_lt hb.1 h1
    rwa [show s * (r * m) = r * m * s by ring, Nat.add_comm j.val] at this
  · intro t ht
    simp only [mem_range] at ht
    have hs : 0 < s := Nat.pos_of_ne_zero (by rintro rfl; simp at ht)
    have hr : 0 < r := Nat.pos_of_ne_zero (by rintro rfl; simp at ht)
    refine ⟨(t % s, t / s / r), ?_, ⟨t / s % r, Nat.mod_lt _ hr⟩, mem_univ _, ?_⟩
    · simp only [mem_product, mem_range]
      refine ⟨Nat.mod_lt _ hs, ?_⟩
      rw [Nat.div_div_eq_div_mul]
      exact Nat.div_lt_of_lt_mul (by rw [show s * r * m = r * m * s by ring]; exact ht)
    · simp only
      rw [Nat.div_add_mod, Nat.mod_add_div]
  · intro h
    rw [sum_pm (r * m) s, sum_product]
    refine sum_congr rfl fun q _ => ?_
    rw [Nat.mul_comm r m, sum_pm m r, sum_comm]
    refine sum_congr rfl fun p _ => ?_
    rw [Finset.sum_range]
    refine sum_congr rfl fun j _ => ?_
    rw [Nat.add_comm j.val]

theorem cutRows (b n : ℕ) : Cut (range (b * n)) (range b) (range n) (fun i j => i * n + j) := by
  refine ⟨?_, ?_, sum_rows b n⟩
  · intro i hi j hj
    simp only [mem_range] at hi hj ⊢
    calc i * n + j < i * n + n := by omega
      _ = (i + 1) * n := by ring
      _ ≤ b * n := Nat.mul_le_mul_right _ hi
  · intro t ht
    simp only [mem_range] at ht
    have hn : 0 < n := Nat.pos_of_ne_zero (by rintro rfl; simp at ht)
    refine ⟨t / n, by rw [mem_range]; exact Nat.div_lt_of_lt_mul (by rw [Nat.mul_comm]; exact ht), t % n,
      by rw [mem_range]; exact Nat.mod_lt _ hn, ?_⟩
    rw [Nat.mul_comm, Nat.div_add_mod]

/-! ### stages -/

variable {r m s N k : ℕ} [NeZero r] {lam f g : ℝ}

theorem difPure_op {Gr : ℕ → (Fin r → ℂ) → Fin r → ℂ} {Gr' : ℕ → (Fin r → Xmm F) → Fin r → Xmm F} (hN : N = r * m * s)
    (hN0 : 0 < N) (h : ∀ p < m, c.Op univ (Gr p) (Gr' p) lam k f g) :
    c.Op (range N) (difPure r m s Gr) (difPure r m s Gr') lam k f g := by
  subst hN
  have hs : 0 < s := Nat.pos_of_ne_zero (by rintro rfl; simp at hN0)
  have hm : 0 < m := Nat.pos_of_ne_zero (by rintro rfl; simp at hN0)
  refine blocks (G := fun b => Gr b.2) (G' := fun b => Gr' b.2) ⟨(0, 0), by simp [hs, hm]⟩ (cutPM r m s) (cutRP r m s)
    (fun b hb => h b.2 (mem_range.1 (mem_product.1 hb).2)) ?_ ?_
  · rintro v ⟨q, p⟩ hb i -
    exact difPure_at _ _ (mem_range.1 (mem_product.1 hb).1) p i
  · rintro v ⟨q, p⟩ hb i -
    exact difPure_at _ _ (mem_range.1 (mem_product.1 hb).1) p i

theorem ditPure_op {Gr : ℕ → (Fin r → ℂ) → Fin r → ℂ} {Gr' : ℕ → (Fin r → Xmm F) → Fin r → Xmm F} (hN : N = r * m * s)
    (hN0 : 0 < N) (h : ∀ p < m, c.Op univ (Gr p) (Gr' p) lam k f g) :
    c.Op (range N) (ditPure r m s Gr) (ditPure r m s Gr') lam k f g := by
  subst hN
  have hs : 0 < s := Nat.pos_of_ne_zero (by rintro rfl; simp at hN0)
  have hm : 0 < m := Nat.pos_of_ne_zero (by rintro rfl; simp at hN0)
  refine blocks (G := fun b => Gr b.2) (G' := fun b => Gr' b.2) ⟨(0, 0), by simp [hs, hm]⟩ (cutRP r m s) (cutPM r m s)
    (fun b hb => h b.2 (mem_range.1 (mem_product.1 hb).2)) ?_ ?_
  · rintro v ⟨q, p⟩ hb i -
    exact ditPure_at _ _ (mem_range.1 (mem_product.1 hb).1) (mem_range.1 (mem_product.1 hb).2) i
  · rintro v ⟨q, p⟩ hb i -
    exact ditPure_at _ _ (mem_range.1 (mem_product.1 hb).1) (mem_range.1 (mem_product.1 hb).2) i

variable [CArith F (Xmm F)] (L : ApLaws (C := Xmm F) c.Ap c.m0 c.G)

/-- what the range must be for a map that stretches by `√n` -/
structure Range (c : Flt F) (n : ℕ) (f g : ℝ) : Prop where
  low : c.m0 ≤ f
  high : √n * (2 * g) ≤ c.G

theorem Range.f0 {n : ℕ} (h : Range c n f g) : 0 ≤ f := le_trans c.m0_pos.le h.low

theorem one_le_sqrt {n : ℕ} (h : 0 < n) : (1:ℝ) ≤ √n := Real.one_le_sqrt.2 (by exact_mod_cast h)

theorem Range.mono {n n' : ℕ} {f' g' : ℝ} (h : Range c n f g) (hf : f ≤ f') (hn : n' ≤ n) (hg : √n * g' ≤ √n * g) :
    Range c n' f' g' := by
  refine ⟨le_trans h.low hf, ?_⟩
  have h1 : √(n':ℝ) ≤ √n := Real.sqrt_le_sqrt (by exact_mod_cast hn)
  have := h.high
  by_cases h0 : 0 ≤ g'
  · nlinarith [Real.sqrt_nonneg (n:ℝ)]
  · have := c.G_pos
    nlinarith [Real.sqrt_nonneg (n':ℝ)]

/-- the first of two maps -/
theorem Range.first {n m : ℕ} (h : Range c (n * m) f g) (hm : 0 < m) : Range c n f g :=
  h.mono le_rfl (Nat.le_mul_of_pos_right n hm) le_rfl

/-- the second -/
theorem Range.second {n m : ℕ} (h : Range c (n * m) f g) (hn : 0 < n) : Range c m f (√n * g) := by
  refine ⟨h.low, ?_⟩
  have := h.high
  push_cast at this
  rw [Real.sqrt_mul (by positivity)] at this
  linarith

theorem Range.two {n : ℕ} (h : Range c n f g) (hn : 0 < n) : 2 * g ≤ c.G := by
  have h1 := one_le_sqrt hn
  have := h.high
  by_cases h0 : 0 ≤ g
  · nlinarith
  · have := c.G_pos
    linarith

/-- `S1` stretches by `√n`, `S2` by `√m` -/
theorem seq {α : Type} {A : Finset α} {S1 S2 : (α → ℂ) → α → ℂ} {S1' S2' : (α → Xmm F) → α → Xmm F} {n m k1 k2 : ℕ}
    {x : ℝ} (hn : 0 < n) (h1 : c.Op A S1 S1' (√n) k1 f g) (h2 : c.Op A S2 S2' (√m * x) k2 f (√n * g)) :
    c.Op A (fun v => S2 (S1 v)) (fun v => S2' (S1' v)) (√(n * m : ℕ) * x) (k1 + k2) f g := by
  have := comp h1 h2 (by have := h1.f0; have := one_le_sqrt hn; nlinarith) le_rfl
  refine this.mono (le_of_eq ?_) le_rfl le_rfl le_rfl
  push_cast
  rw [Real.sqrt_mul (by positivity)]; ring

include L

/-- entry by entry: kept or multiplied by a factor of magnitude one -/
theorem twiddle {α : Type} {A : Finset α} {h : α → ℂ → ℂ} {h' : α → Xmm F → Xmm F} {w : ℕ} (hR : Range c 1 f g)
    (hT : ∀ t ∈ A, ((∀ a, h t a = a) ∧ ∀ a, h' t a = a) ∨
      ∃ T T', c.Ap T T' 1 w ∧ (∀ a, h t a = mulpz T a) ∧ ∀ a, h' t a = mulpz T' a) (hw : w ≤ c.K) :
    c.Op A (fun v t => h t (v t)) (fun v t => h' t (v t)) 1 (w + 4) f g := by
  have hG : (1:ℝ) ≤ c.G := le_trans (by norm_num) c.G_ge
  have hg := hR.two one_pos
  refine pointwise zero_le_one (fun t ht => ?_) (fun t ht x y => ?_) (fun t ht a a' M ha _ _ => ?_) hR.low
    (by rw [one_mul]; exact hR.low) hg (by rw [one_mul]; exact hg)
  · rcases hT t ht with ⟨e, -⟩ | ⟨T, T', hA, e, -⟩ <;> rw [e]
    rw [mulpz_C, mul_zero]
  · rcases hT t ht with ⟨e, -⟩ | ⟨T, T', hA, e, -⟩ <;> rw [e, e]
    · rw [one_mul]
    · rw [mulpz_C, mulpz_C, ← mul_sub, norm_mul]
      exact mul_le_mul_of_nonneg_right (hA.2 hG hw).2.1 (norm_nonneg _)
  · rw [one_mul]
    rcases hT t ht with ⟨e, e'⟩ | ⟨T, T', hA, e, e'⟩ <;> rw [e, e']
    · exact L.mono ha le_rfl (by omega)
    · exact L.mono (L.tw_mul hA ha) le_rfl (by omega)

/-- the same with the factor on the right -/
theorem twiddleR {α : Type} {A : Finset α} {h : α → ℂ → ℂ} {h' : α → Xmm F → Xmm F} {w : ℕ} (hR : Range c 1 f g)
    (hT : ∀ t ∈ A, ((∀ a, h t a = a) ∧ ∀ a, h' t a = a) ∨
      ∃ T T', c.Ap T T' 1 w ∧ (∀ a, h t a = mulpz a T) ∧ ∀ a, h' t a = mulpz a T') (hw : w ≤ c.K) :
    c.Op A (fun v t => h t (v t)) (fun v t => h' t (v t)) 1 (w + 4) f g := by
  have hG : (1:ℝ) ≤ c.G := le_trans (by norm_num) c.G_ge
  have hg := hR.two one_pos
  refine pointwise zero_le_one (fun t ht => ?_) (fun t ht x y => ?_) (fun t ht a a' M ha _ _ => ?_) hR.low
    (by rw [one_mul]; exact hR.low) hg (by rw [one_mul]; exact hg)
  · rcases hT t ht with ⟨e, -⟩ | ⟨T, T', hA, e, -⟩ <;> rw [e]
    rw [mulpz_C, zero_mul]
  · rcases hT t ht with ⟨e, -⟩ | ⟨T, T', hA, e, -⟩ <;> rw [e, e]
    · rw [one_mul]
    · rw [mulpz_C, mulpz_C, ← sub_mul, norm_mul, mul_comm]
      exact mul_le_mul_of_nonneg_right (hA.2 hG hw).2.1 (norm_nonneg _)
  · rw [one_mul]
    rcases hT t ht with ⟨e, e'⟩ | ⟨T, T', hA, e, e'⟩ <;> rw [e, e']
    · exact L.mono ha le_rfl (by omega)
    · exact L.mono (L.mul_tw ha hA) le_rfl (by omega)

/-- normalisation -/
theorem scale_op {α : Type} {A : Finset α} {mode : ScaleMode} (h1 : 1 ≤ N) (h31 : N ≤ 2 ^ 31) (h : Range c 1 f g)
    (hm : c.m0 ≤ scR N mode * f) :
    c.Op A (fun v t => scalepz N mode (v t)) (fun v t => scalepz N mode (v t)) (scR N mode) 6 f g := by
  have hs := ApLaws.scR_range N mode h1 h31
  have hs0 := (ApLaws.scR_pos N mode h1).le
  have hg := h.two one_pos
  refine pointwise (h := fun _ a => scalepz N mode a) (h' := fun _ a => scalepz N mode a) hs0
    (fun t _ => ?_) (fun t _ x y => ?_) (fun t _ a a' M ha hM hm => ?_) h.low hm hg ?_
  · rw [scalepz_C, mul_zero]
  · rw [scalepz_C, scalepz_C, ← mul_sub, norm_mul, scC_eq, Complex.norm_real, Real.norm_of_nonneg hs0]
  · exact L.mono (L.scale N mode h1 h31 ha hM hm) le_rfl (by omega)
  · by_cases h0 : 0 ≤ g
    · nlinarith [hs.2]
    · have := c.G_pos
      nlinarith

theorem mixScale_op {α : Type} {A : Finset α} {mode : ScaleMode} (h1 : 1 ≤ N) (h31 : N ≤ 2 ^ 31) (h : Range c 1 f g)
    (hm : c.m0 ≤ scR N mode * f) :
    c.Op A (fun v t => mixScale N mode (v t)) (fun v t => mixScale N mode (v t)) (scR N mode) 6 f g := by
  have hs := ApLaws.scR_range N mode h1 h31
  have hs0 := (ApLaws.scR_pos N mode h1).le
  have hg := h.two one_pos
  refine pointwise (h := fun _ a => mixScale N mode a) (h' := fun _ a => mixScale N mode a) hs0
    (fun t _ => ?_) (fun t _ x y => ?_) (fun t _ a a' M ha hM hm => ?_) h.low hm hg ?_
  · rw [mixScale_C, mul_zero]
  · rw [mixScale_C, mixScale_C, ← mul_sub, norm_mul, scC_eq, Complex.norm_real, Real.norm_of_nonneg hs0]
  · exact L.mono (L.mixScale N mode h1 h31 ha hM hm) le_rfl (by omega)
  · by_cases h0 : 0 ≤ g
    · nlinarith [hs.2]
    · have := c.G_pos
      nlinarith

omit L in
/-- a butterfly -/
theorem bf_op {B : BF r} {inv : Bool} {cost rho : ℕ} (hB : BFGood B inv) (hM : ApLaws.BflyM c.Ap B cost) (hrho : r ≤ rho * rho)
    (h : Range c r f g) : c.Op univ (B.fn : (Fin r → ℂ) → _) (B.fn : (Fin r → Xmm F) → _) (√r) (rho * cost) f g :=
  bfly (Nat.pos_of_ne_zero (NeZero.ne r)) hrho hB
    (fun x x' M hx i => by simpa using hM x x' M 0 hx i) h.low h.high

section out
variable {B : BF r} {inv : Bool} {cost rho w : ℕ}

/-- a DIF butterfly with its twiddle factors -/
theorem difOut_op (hB : BFGood B inv) (hM : ApLaws.BflyM c.Ap B cost) (hrho : r ≤ rho * rho) (h : Range c r f g)
    {T : Fin (r - 1) → ℂ} {T' : Fin (r - 1) → Xmm F} (hT : ∀ i, c.Ap (T i) (T' i) 1 w) (hw : w ≤ c.K) :
    c.Op univ (fun xs => difOut B xs T) (fun xs => difOut B xs T') (√r) (rho * cost + (w + 4)) f g := by
  have hr : 0 < r := Nat.pos_of_ne_zero (NeZero.ne r)
  have h1 := bf_op hB hM hrho h
  have h2 := twiddle (c := c) L (A := univ) (α := Fin r) (f := f) (g := √r * g) (w := w)
    (h := fun i a => if h : i.val = 0 then a else mulpz (T ⟨i.val - 1, by omega⟩) a)
    (h' := fun i a => if h : i.val = 0 then a else mulpz (T' ⟨i.val - 1, by omega⟩) a)
    (by simpa using (show Range c (r * 1) f g by simpa using h).second hr)
    (fun i _ => by
      by_cases hi : i.val = 0
      · exact Or.inl ⟨fun a => dif_pos hi, fun a => dif_pos hi⟩
      · exact Or.inr ⟨_, _, hT ⟨i.val - 1, by omega⟩, fun a => dif_neg hi, fun a => dif_neg hi⟩) hw
  have := seq (m := 1) (x := 1) hr h1 (by rw [Nat.cast_one, Real.sqrt_one, mul_one]; exact h2)
  simp only [Nat.mul_one, mul_one] at this
  exact this

/-- a DIT butterfly with its twiddle factors -/
theorem ditOut_op (hB : BFGood B inv) (hM : ApLaws.BflyM c.Ap B cost) (hrho : r ≤ rho * rho) (h : Range c r f g)
    {T : Fin (r - 1) → ℂ} {T' : Fin (r - 1) → Xmm F} (hT : ∀ i, c.Ap (T i) (T' i) 1 w) (hw : w ≤ c.K) :
    c.Op univ (fun xs => ditOut B xs T) (fun xs => ditOut B xs T') (√r) (rho * cost + (w + 4)) f g := by
  have hr : 0 < r := Nat.pos_of_ne_zero (NeZero.ne r)
  have h1 := bf_op hB hM hrho h
  have h2 := twiddle (c := c) L (A := univ) (α := Fin r) (f := f) (g := g) (w := w)
    (h := fun i a => if h : i.val = 0 then a else mulpz (T ⟨i.val - 1, by omega⟩) a)
    (h' := fun i a => if h : i.val = 0 then a else mulpz (T' ⟨i.val - 1, by omega⟩) a)
    (h.mono le_rfl (by omega) le_rfl)
    (fun i _ => by
      by_cases hi : i.val = 0
      · exact Or.inl ⟨fun a => dif_pos hi, fun a => dif_pos hi⟩
      · exact Or.inr ⟨_, _, hT ⟨i.val - 1, by omega⟩, fun a => dif_neg hi, fun a => dif_neg hi⟩) hw
  have := seq (n := 1) (m := r) (x := 1) one_pos (by rw [Nat.cast_one, Real.sqrt_one]; exact h2)
    (by rw [Nat.cast_one, Real.sqrt_one, one_mul, mul_one]; exact h1)
  simp only [Nat.one_mul, mul_one] at this
  rw [Nat.add_comm (w + 4)] at this
  exact this

end out

end Flt.Op
end OTFFT
