/-
Error analysis in the 2-norm: the transforms of power-of-two length.
-/
import Verif.Proof.L2Stage

namespace OTFFT

open Finset

namespace Flt.Op
variable {F : Type} [FArith F] {c : Flt F} [CArith F (Xmm F)] (L : ApLaws (C := Xmm F) c.Ap c.m0 c.G)
  {N : ℕ} {mode : ScaleMode} {inv : Bool} {f g : ℝ}

theorem Range.scaled {n : ℕ} (h : Range c n f g) (h1 : 1 ≤ N) (h31 : N ≤ 2 ^ 31) (hm : c.m0 ≤ scR N mode * f) :
    Range c n (scR N mode * f) (scR N mode * g) := by
  refine ⟨hm, ?_⟩
  have hs := ApLaws.scR_range N mode h1 h31
  have hs0 := (ApLaws.scR_pos N mode h1).le
  have := h.high
  by_cases h0 : 0 ≤ √n * (2 * g)
  · nlinarith
  · have := c.G_pos
    nlinarith

theorem Range.one {n : ℕ} (h : Range c n f g) (hn : 0 < n) : Range c 1 f g := h.mono le_rfl hn le_rfl

include L

theorem end_op {r s cost rho : ℕ} [NeZero r] {B : BF r} (hB : BFGood B inv) (hM : ApLaws.BflyM c.Ap B cost)
    (hrho : r ≤ rho * rho) (hN : N = r * s) (h1 : 1 ≤ N) (h31 : N ≤ 2 ^ 31) (h : Range c r f g)
    (hm : c.m0 ≤ scR N mode * f) :
    c.Op (range N) (difPure r 1 s (endG B (r * s) mode)) (difPure r 1 s (endG B (r * s) mode)) (√r * scR N mode)
      (rho * cost + 6) f g := by
  have hr : 0 < r := Nat.pos_of_ne_zero (NeZero.ne r)
  rw [← hN]
  have a1 := scale_op (A := range N) (mode := mode) L h1 h31 (h.one hr) hm
  have a2 := difPure_op (m := 1) (s := s) (Gr := fun _ => B.fn) (Gr' := fun _ => B.fn) (by rw [hN]; ring) h1
    (fun p _ => bf_op hB hM hrho (h.scaled h1 h31 hm))
  exact (comp a1 a2 le_rfl le_rfl).mono (le_of_eq (mul_comm _ _)) (by omega) le_rfl le_rfl

theorem endPure_op {l n s a : ℕ} (ha : 20 ≤ a) (hn : n = 2 ^ l) (hl : 1 ≤ l) (h16 : n ≤ 16)
    (hN : N = n * s) (h1 : 1 ≤ N) (h31 : N ≤ 2 ^ 31) (h : Range c n f g) (hm : c.m0 ≤ scR N mode * f) :
    c.Op (range N) (endPure inv mode n s) (endPure inv mode n s) (√n * scR N mode) (a * l) f g := by
  have hl4 : l ≤ 4 := by
    by_contra hc
    have : 2 ^ 5 ≤ 2 ^ l := Nat.pow_le_pow_right (by omega) (by omega)
    omega
  unfold endPure
  obtain rfl | rfl | rfl | rfl : l = 1 ∨ l = 2 ∨ l = 3 ∨ l = 4 := by omega
  · obtain rfl : n = 2 := hn
    exact (end_op L (bf2_good inv) L.bflyM2 (rho := 2) (by omega) hN h1 h31 h hm).mono le_rfl (by omega) le_rfl le_rfl
  · obtain rfl : n = 4 := hn
    exact (end_op L (bf4_good inv) (L.bflyM4 inv) (rho := 2) (by omega) hN h1 h31 h hm).mono le_rfl (by omega) le_rfl le_rfl
  · obtain rfl : n = 8 := hn
    exact (end_op L (bf8_good inv) (L.bflyM8 inv) (rho := 3) (by omega) hN h1 h31 h hm).mono le_rfl (by omega) le_rfl le_rfl
  · obtain rfl : n = 16 := hn
    exact (end_op L (bf16_good inv) (L.bflyM16 inv) (rho := 4) (by omega) hN h1 h31 h hm).mono le_rfl (by omega) le_rfl le_rfl

section recs
variable {r e w cost rho a : ℕ} [NeZero r] {B : BF r} {T : ℕ → Fin (r - 1) → ℂ} {T' : ℕ → Fin (r - 1) → Xmm F}

omit L in
/-- what the recursions need -/
structure RecOK (c : Flt F) (inv : Bool) (r e w cost rho a N : ℕ) (B : BF r) (T : ℕ → Fin (r - 1) → ℂ)
    (T' : ℕ → Fin (r - 1) → Xmm F) : Prop where
  base : ApLaws.RecOK c.Ap r e w cost (cost + w + 19) N B T T'
  good : BFGood B inv
  bfM : ApLaws.BflyM c.Ap B cost
  rr : r ≤ rho * rho
  wK : w ≤ c.K
  le : rho * cost + (w + 4) ≤ a * e
  a20 : 20 ≤ a

theorem difRec_op (hR : RecOK c inv r e w cost rho a N B T T') (h1 : 1 ≤ N) (h31 : N ≤ 2 ^ 31) (l : ℕ) :
    ∀ {n s : ℕ} {f g : ℝ}, n = 2 ^ l → 1 ≤ l → N = n * s → Range c n f g → c.m0 ≤ scR N mode * f →
      c.Op (range N) (difRec r B inv T mode n s) (difRec r B inv T' mode n s) (√n * scR N mode) (a * l) f g := by
  induction l using Nat.strong_induction_on with
  | _ l ih =>
    intro n s f g hn hl hN h hm
    have hr := hR.base.r16
    have hs : 1 ≤ s := Nat.pos_of_ne_zero (by rintro rfl; omega)
    have e1 : difRec r B inv T mode n s = fun v => difRec r B inv T mode n s v := rfl
    have e2 : difRec r B inv T' mode n s = fun v => difRec r B inv T' mode n s v := rfl
    rw [e1, e2]
    simp only [difRec.eq_def r B inv _ mode n s]
    by_cases hc : n ≤ r ∨ r < 2
    · simp only [dif_pos hc]
      exact endPure_op L hR.a20 hn hl (by omega) hN h1 h31 h hm
    · simp only [dif_neg hc]
      obtain ⟨hel, hd, hN1, hN2, hnr, hp⟩ := hR.base.split hn hN (by omega) hs
      have e2 := hR.base.e2
      have hnr' : n = r * (n / r) := by exact_mod_cast hnr
      have hm0 : 0 < n / r := by rw [hd]; positivity
      have h' : Range c (r * (n / r)) f g := by rw [← hnr']; exact h
      have key := ih (l - e) (by omega) (n := n / r) (s := r * s) hd (by omega) hN2 (h'.second (by omega)) hm
      have st := difPure_op (c := c) (Gr := difG B T s) (Gr' := difG B T' s) hN1 h1
        (fun p hp' => difOut_op L hR.good hR.bfM hR.rr (h'.first hm0) (hR.base.tw _ (hp p hp')) hR.wK)
      have := seq (by omega) st key
      rw [← hnr'] at this
      refine this.mono le_rfl ?_ le_rfl le_rfl
      have : a * l = a * e + a * (l - e) := by rw [← Nat.mul_add]; congr 1; omega
      have := hR.le
      omega

theorem ditRec_op (hR : RecOK c inv r e w cost rho a N B T T') (h1 : 1 ≤ N) (h31 : N ≤ 2 ^ 31) (l : ℕ) :
    ∀ {n s : ℕ} {f g : ℝ}, n = 2 ^ l → 1 ≤ l → N = n * s → Range c n f g → c.m0 ≤ scR N mode * f →
      c.Op (range N) (ditRec r B inv T mode n s) (ditRec r B inv T' mode n s) (√n * scR N mode) (a * l) f g := by
  induction l using Nat.strong_induction_on with
  | _ l ih =>
    intro n s f g hn hl hN h hm
    have hr := hR.base.r16
    have hs : 1 ≤ s := Nat.pos_of_ne_zero (by rintro rfl; omega)
    have e1 : ditRec r B inv T mode n s = fun v => ditRec r B inv T mode n s v := rfl
    have e2 : ditRec r B inv T' mode n s = fun v => ditRec r B inv T' mode n s v := rfl
    rw [e1, e2]
    simp only [ditRec.eq_def r B inv _ mode n s]
    by_cases hc : n ≤ r ∨ r < 2
    · simp only [dif_pos hc]
      exact endPure_op L hR.a20 hn hl (by omega) hN h1 h31 h hm
    · simp only [dif_neg hc]
      obtain ⟨hel, hd, hN1, hN2, hnr, hp⟩ := hR.base.split hn hN (by omega) hs
      have e2 := hR.base.e2
      have hnr' : n = n / r * r := by rw [Nat.mul_comm]; exact_mod_cast hnr
      have hm0 : 0 < n / r := by rw [hd]; positivity
      have h' : Range c (n / r * r) f g := by rw [← hnr']; exact h
      have key := ih (l - e) (by omega) (n := n / r) (s := r * s) hd (by omega) hN2 (h'.first (by omega)) hm
      have hs0 := (ApLaws.scR_pos N mode h1).le
      have hRg := (h'.second hm0).scaled h1 h31 hm
      have st := ditPure_op (c := c) (Gr := ditG B T s) (Gr' := ditG B T' s) hN1 h1
        (fun p hp' => ditOut_op L hR.good hR.bfM hR.rr hRg (hR.base.tw _ (hp p hp')) hR.wK)
      have hq := one_le_sqrt hm0
      have := comp key st (by
        have : 0 ≤ scR N mode * f := mul_nonneg hs0 h.f0
        nlinarith) (le_of_eq (by ring))
      refine this.mono (le_of_eq ?_) ?_ le_rfl le_rfl
      · conv_rhs => rw [hnr']
        push_cast
        rw [Real.sqrt_mul (by positivity)]; ring
      · have : a * l = a * e + a * (l - e) := by rw [← Nat.mul_add]; congr 1; omega
        have := hR.le
        omega

end recs

/-! ### Stockham -/

omit L in
theorem stTw_le2 (path : Path) : 2 * 2 + (ApLaws.stTw path 4 + 4) ≤ 55 * 2 ∧ 3 * 7 + (ApLaws.stTw path 8 + 4) ≤ 55 * 3 ∧
    4 * 13 + (ApLaws.stTw path 16 + 4) ≤ 55 * 4 := by
  cases path <;> simp [ApLaws.stTw, twK]

theorem stock_rec (hK : 1000 ≤ c.K) {path : Path} {r e cost rho a : ℕ} {B : BF r} (hr : r = 4 ∨ r = 8 ∨ r = 16)
    (hre : r = 2 ^ e) (e2 : 2 ≤ e) (e4 : e ≤ 4) (hbf : ApLaws.Bfly c.Ap B cost) (hB : BFGood B inv)
    (hM : ApLaws.BflyM c.Ap B cost) (hrr : r ≤ rho * rho) (hle : rho * cost + (ApLaws.stTw path r + 4) ≤ a * e)
    (ha : 20 ≤ a) (ha2 : a * e ≤ 1000) (h31 : N ≤ 2 ^ 31) :
    RecOK c inv r e (ApLaws.stTw path r) cost rho a N B (stockhamTw ℂ path r N inv) (stockhamTw (Xmm F) path r N inv) := by
  refine ⟨⟨hre, e2, e4, hbf, fun p hp i => L.stockhamTw_ap inv h31 hr hp i, ?_, by omega⟩, hB, hM, hrr, by omega, hle, ha⟩
  have : (cost + ApLaws.stTw path r + 19) * 1 ≤ (cost + ApLaws.stTw path r + 19) * e := Nat.mul_le_mul_left _ (by omega)
  omega

theorem stockOut_op (hK : 1000 ≤ c.K) {th : ℕ} {dit : Bool} {rad : Radix} {l : ℕ} (hN : N = 2 ^ l) (hl : 1 ≤ l)
    (h31 : N ≤ 2 ^ 31) (h : Range c N f g) (hm : c.m0 ≤ scR N mode * f) :
    c.Op (range N) (stockOut ℂ th dit rad inv mode N) (stockOut (Xmm F) th dit rad inv mode N) (√N * scR N mode)
      (55 * l) f g := by
  have h1 : 1 ≤ N := by rw [hN]; exact Nat.one_le_two_pow
  have hc := stTw_le2 (pathOf th N)
  have r4 := stock_rec L (inv := inv) hK (e := 2) (by omega) (by norm_num) (by omega) (by omega) (L.bfly4 inv)
    (bf4_good inv) (L.bflyM4 inv) (rho := 2) (by omega) hc.1 (by omega) (by omega) h31
  have r8 := stock_rec L (inv := inv) hK (e := 3) (by omega) (by norm_num) (by omega) (by omega) (L.bfly8 inv)
    (bf8_good inv) (L.bflyM8 inv) (rho := 3) (by omega) hc.2.1 (by omega) (by omega) h31
  have r16 := stock_rec L (inv := inv) hK (e := 4) (by omega) (by norm_num) (by omega) (by omega) (L.bfly16 inv)
    (bf16_good inv) (L.bflyM16 inv) (rho := 4) (by omega) hc.2.2 (by omega) (by omega) h31
  cases dit <;> cases rad
  · exact difRec_op L r4 h1 h31 l hN hl (by omega) h hm
  · exact difRec_op L r8 h1 h31 l hN hl (by omega) h hm
  · exact difRec_op L r16 h1 h31 l hN hl (by omega) h hm
  · exact ditRec_op L r4 h1 h31 l hN hl (by omega) h hm
  · exact ditRec_op L r8 h1 h31 l hN hl (by omega) h hm
  · exact ditRec_op L r16 h1 h31 l hN hl (by omega) h hm

theorem rec8_op (hK : 1000 ≤ c.K) {l : ℕ} (hN : N = 2 ^ l) (hl : 1 ≤ l)
    (h31 : N ≤ 2 ^ 31) (h : Range c N f g) (hm : c.m0 ≤ scR N mode * f) :
    c.Op (range N) (difRec 8 (bf8 inv) inv (stockhamTw ℂ .serial 8 N inv) mode N 1)
      (difRec 8 (bf8 inv) inv (stockhamTw (Xmm F) .serial 8 N inv) mode N 1) (√N * scR N mode) (21 * l) f g := by
  have h1 : 1 ≤ N := by rw [hN]; exact Nat.one_le_two_pow
  have r8 := stock_rec L (inv := inv) hK (path := .serial) (e := 3) (a := 21) (by omega) (by norm_num) (by omega) (by omega)
    (L.bfly8 inv) (bf8_good inv) (L.bflyM8 inv) (rho := 3) (by omega) (by simp [ApLaws.stTw]) (by omega) (by omega) h31
  exact difRec_op L r8 h1 h31 l hN hl (by omega) h hm

/-! ### six-step and eight-step -/

omit L in
theorem sum_transp (b n : ℕ) (h : ℕ → ℝ) : ∑ t ∈ range (b * n), h (t / n + b * (t % n)) = ∑ t ∈ range (b * n), h t := by
  rcases Nat.eq_zero_or_pos n with rfl | hn
  · simp
  rw [sum_rows b n, Nat.mul_comm b n, sum_pm n b]
  refine sum_congr rfl fun i _ => sum_congr rfl fun j hj => ?_
  rw [Nat.mul_comm i n, Nat.mul_add_div hn, Nat.mul_add_mod, Nat.mod_eq_of_lt (mem_range.1 hj),
    Nat.div_eq_of_lt (mem_range.1 hj), Nat.add_zero]

omit L [CArith F (Xmm F)] in
theorem transp_op {b n : ℕ} (hf : 0 ≤ f) : c.Op (range (b * n)) (fun v t => v (t / n + b * (t % n)))
    (fun v t => v (t / n + b * (t % n))) 1 0 f g := by
  refine perm (fun t ht => ?_) (sum_transp b n) hf
  rw [mem_range] at ht ⊢
  have hn : 0 < n := Nat.pos_of_ne_zero (by rintro rfl; simp at ht)
  exact idx_lt (Nat.div_lt_of_lt_mul (by rw [Nat.mul_comm]; exact ht)) (Nat.mod_lt _ hn)

section six
variable {n : ℕ}

omit L [CArith F (Xmm F)] in
theorem transpV_op (hf : 0 ≤ f) : c.Op (range (n * n)) (transpV n) (transpV n) 1 0 f g := by
  have := transp_op (c := c) (b := n) (n := n) (g := g) hf
  simp only [Nat.mul_comm n (_ % n)] at this
  exact this

theorem rows_op (hK : 1000 ≤ c.K) {l : ℕ} (hn : n = 2 ^ l) (hl : 1 ≤ l) (h31 : n ≤ 2 ^ 31) (h : Range c n f g) :
    c.Op (range (n * n)) (sixRowsV inv n) (sixRowsV inv n) (√n) (21 * l) f g := by
  have hn0 : 0 < n := by rw [hn]; positivity
  have a := rec8_op L (inv := inv) (mode := .scale_1) hK hn hl h31 h (by rw [ApLaws.scR_one, one_mul]; exact h.low)
  rw [ApLaws.scR_one, mul_one] at a
  refine blocks ⟨0, by simpa using hn0⟩ (cutRows n n) (cutRows n n) (fun _ _ => a) ?_ ?_ <;>
  · intro v b _ j hj
    have hj := mem_range.1 hj
    have e1 : (b * n + j) / n = b := by
      rw [Nat.mul_comm, Nat.mul_add_div hn0, Nat.div_eq_of_lt hj, Nat.add_zero]
    have e2 : (b * n + j) % n = j := by rw [Nat.mul_comm, Nat.mul_add_mod, Nat.mod_eq_of_lt hj]
    unfold sixRowsV
    rw [e1, e2]

theorem mult_op (hK : 1000 ≤ c.K) (h0 : 0 < n) (h31 : n * n ≤ 2 ^ 31) (h : Range c 1 f g)
    (hm : c.m0 ≤ scR (n * n) mode * f) :
    c.Op (range (n * n)) (sixMultV inv mode n) (sixMultV inv mode n) (scR (n * n) mode) 47 f g := by
  have h1 : 1 ≤ n * n := Nat.mul_pos h0 h0
  obtain ⟨s1, s2⟩ := ApLaws.scR_range (n * n) mode h1 h31
  have hg := L.G_ge
  have hm1 : c.m0 ≤ scR (n * n) mode := le_trans L.m0_le (le_trans (by norm_num) s1)
  have hg1 : (1:ℝ) ≤ c.G := le_trans (by norm_num) hg
  have hs0 := (ApLaws.scR_pos (n * n) mode h1).le
  have hs : ∀ t ∈ range (n * n), c.Ap (scalepz (n * n) mode (cj inv (sixTw ℂ n (t % n) (t / n))))
      (scalepz (n * n) mode (cj inv (sixTw (Xmm F) n (t % n) (t / n)))) (scR (n * n) mode) 43 := by
    intro t ht
    have ht := mem_range.1 ht
    have cc := ApLaws.mod_lt_of ht
    have r : t / n < n := Nat.div_lt_of_lt_mul ht
    have hw : c.Ap (sixTw ℂ n (t % n) (t / n)) (sixTw (Xmm F) n (t % n) (t / n)) 1 37 := by
      unfold sixTw
      split
      · exact L.nxn h31 cc r
      · exact L.nxn h31 r cc
    have hs := L.scale (n * n) mode h1 h31 (L.cj_ap inv hw) hg1 (by rwa [mul_one])
    rw [mul_one] at hs
    exact hs
  have b2 := h.two one_pos
  have p : c.Op (range (n * n)) (fun v t => mulpz (scalepz (n * n) mode (cj inv (sixTw ℂ n (t % n) (t / n)))) (v t))
      (fun v t => mulpz (scalepz (n * n) mode (cj inv (sixTw (Xmm F) n (t % n) (t / n)))) (v t)) (scR (n * n) mode) 47 f g := by
    refine pointwise (h := fun t a => mulpz (scalepz (n * n) mode (cj inv (sixTw ℂ n (t % n) (t / n)))) a)
      (h' := fun t a => mulpz (scalepz (n * n) mode (cj inv (sixTw (Xmm F) n (t % n) (t / n)))) a) hs0
      (fun t _ => ?_) (fun t ht x y => ?_) (fun t ht a a' M ha hM hm => ?_) h.low hm b2 ?_
    · rw [mulpz_C, mul_zero]
    · rw [mulpz_C, mulpz_C, ← mul_sub, norm_mul]
      exact mul_le_mul_of_nonneg_right ((hs t ht).2 (by linarith) (by omega)).2.1 (norm_nonneg _)
    · exact L.mono (L.mul (hs t ht) ha (by linarith) hM hm) le_rfl (by omega)
    · by_cases h0 : 0 ≤ g
      · nlinarith
      · have := c.G_pos
        nlinarith
  have := comp (transpV_op (c := c) (n := n) (f := f) (g := g) h.f0) p (by rw [one_mul]) (by rw [one_mul])
  simp only [one_mul, Nat.zero_add] at this
  exact this

theorem six_op (hK : 1000 ≤ c.K) {l : ℕ} (hn : n = 2 ^ l) (hl : 1 ≤ l) (h31 : n * n ≤ 2 ^ 31) (h : Range c (n * n) f g)
    (hm : c.m0 ≤ scR (n * n) mode * f) :
    c.Op (range (n * n)) (sixPure inv mode n) (sixPure inv mode n) (√(n * n : ℕ) * scR (n * n) mode) (42 * l + 47) f g := by
  have h0 : 0 < n := by rw [hn]; positivity
  have hnn : n ≤ n * n := Nat.le_mul_of_pos_left n h0
  have hq := one_le_sqrt h0
  have hs0 := (ApLaws.scR_pos (n * n) mode (by omega)).le
  have t1 := transpV_op (c := c) (n := n) (f := f) (g := g) h.f0
  have r1 := rows_op L (inv := inv) hK hn hl (by omega) (h.first h0)
  have R2 := h.second h0
  have m1 := mult_op L (inv := inv) (mode := mode) hK h0 h31 (R2.one h0) hm
  have R3 := R2.scaled (N := n * n) (mode := mode) (by omega) h31 hm
  have r2 := rows_op L (inv := inv) hK hn hl (by omega) R3
  have t2 := transpV_op (c := c) (n := n) (f := √n * (scR (n * n) mode * f)) (g := √n * (scR (n * n) mode * (√n * g)))
    (mul_nonneg (Real.sqrt_nonneg _) R3.f0)
  have a1 := comp t1 r1 (by rw [one_mul]) (by rw [one_mul])
  have a2 := comp a1 m1 (by rw [one_mul]; have := h.f0; nlinarith) (by rw [one_mul])
  have hsf := R3.f0
  have a3 := comp a2 r2 (by rw [one_mul]; nlinarith) (le_of_eq (by ring))
  have a4 := comp a3 t2 (by
      have h1 : 0 ≤ √(n:ℝ) * (scR (n * n) mode * f) := by positivity
      nlinarith) (le_of_eq (by ring))
  refine Op.mono (S := sixPure inv mode n) (S' := sixPure inv mode n) a4 (le_of_eq ?_) (by omega) le_rfl le_rfl
  push_cast
  rw [Real.sqrt_mul (by positivity)]; ring

theorem eightPre_op (hK : 1000 ≤ c.K) {N1 : ℕ} (h0 : 0 < N1) (h31 : 8 * N1 ≤ 2 ^ 31) (h : Range c 8 f g)
    (hm : c.m0 ≤ scR (8 * N1) mode * f) :
    c.Op (range (8 * N1)) (eightPreV inv mode N1) (eightPreV inv mode N1) (√8 * scR (8 * N1) mode) 118 f g := by
  have a1 := scale_op (A := range (8 * N1)) (mode := mode) L (by omega) h31 (h.one (by omega)) hm
  have hw : ∀ q < N1, ∀ i : Fin (8 - 1), c.Ap (wpow (cj inv (wr1Val ℂ (8 * N1) q)) (i.val + 1))
      (wpow (cj inv (wr1Val (Xmm F) (8 * N1) q)) (i.val + 1)) 1 87 := fun q hq i => by
    have := L.wpow_ap (L.cj_ap inv (L.wr1 (N := 8 * N1) (p := q) (r := 8) h31 (by omega) (by omega))) (i.val + 1) (by omega)
    refine L.mono this le_rfl ?_
    have hi := i.isLt
    simp [twK]
    omega
  have cut := cutPM 8 N1 1
  rw [Nat.mul_one] at cut
  have a2 : c.Op (range (8 * N1)) (fun v t => difOut (bf8 inv) (fun j => v (t % N1 + N1 * j.val))
      (fun k => wpow (cj inv (wr1Val ℂ (8 * N1) (t % N1))) (k.val + 1)) (Fin.ofNat 8 (t / N1)))
      (fun v t => difOut (bf8 inv) (fun j => v (t % N1 + N1 * j.val))
      (fun k => wpow (cj inv (wr1Val (Xmm F) (8 * N1) (t % N1))) (k.val + 1)) (Fin.ofNat 8 (t / N1))) (√(8 : ℕ))
      (3 * 7 + (87 + 4)) (scR (8 * N1) mode * f) (scR (8 * N1) mode * g) := by
    refine blocks (e := fun b j => b.1 + 1 * (b.2 + N1 * j.val)) (e' := fun b j => b.1 + 1 * (b.2 + N1 * j.val))
      ⟨(0, 0), by simp [h0]⟩ cut cut (fun b hb => difOut_op L (bf8_good inv) (L.bflyM8 inv) (by omega)
        (h.scaled (by omega) h31 hm) (hw b.2 (mem_range.1 (mem_product.1 hb).2)) (by omega)) ?_ ?_ <;>
    · rintro v ⟨z, q⟩ hb j -
      obtain ⟨hz, hq⟩ := mem_product.1 hb
      obtain rfl : z = 0 := by simpa using hz
      have hq := mem_range.1 hq
      have e1 : (q + N1 * j.val) % N1 = q := by rw [Nat.add_mul_mod_self_left, Nat.mod_eq_of_lt hq]
      have e2 : (q + N1 * j.val) / N1 = j.val := by rw [Nat.add_mul_div_left _ _ h0, Nat.div_eq_of_lt hq, Nat.zero_add]
      simp only [Nat.zero_add, Nat.one_mul, e1, e2]
      rw [show Fin.ofNat 8 j.val = j from Fin.ext (Nat.mod_eq_of_lt j.isLt)]
  exact (comp a1 a2 le_rfl le_rfl).mono (le_of_eq (by push_cast; ring)) (by omega) le_rfl le_rfl

theorem eight_op (hK : 1000 ≤ c.K) {l : ℕ} (hn : n = 2 ^ l) (hl : 1 ≤ l) (h31 : 8 * (n * n) ≤ 2 ^ 31)
    (h : Range c (8 * (n * n)) f g) (hm : c.m0 ≤ scR (8 * (n * n)) mode * f) :
    c.Op (range (8 * (n * n))) (eightPure inv mode n) (eightPure inv mode n)
      (√(8 * (n * n) : ℕ) * scR (8 * (n * n)) mode) (42 * l + 165) f g := by
  have h0 : 0 < n := by rw [hn]; positivity
  have hnn : 0 < n * n := Nat.mul_pos h0 h0
  have a1 := eightPre_op L (inv := inv) (mode := mode) hK hnn h31 (h.first hnn) hm
  have R2 := (h.second (by omega)).scaled (N := 8 * (n * n)) (mode := mode) (by omega) h31 hm
  have hf2 := R2.f0
  have b := six_op L (inv := inv) (mode := .scale_1) hK hn hl (by omega) R2 (by
    rw [ApLaws.scR_one, one_mul]; exact R2.low)
  rw [ApLaws.scR_one, mul_one] at b
  have a2 : c.Op (range (8 * (n * n))) (eightSubV inv n) (eightSubV inv n) (√(n * n : ℕ)) (42 * l + 47)
      (scR (8 * (n * n)) mode * f) (scR (8 * (n * n)) mode * (√(8 : ℕ) * g)) := by
    refine blocks ⟨0, by simp⟩ (cutRows 8 (n * n)) (cutRows 8 (n * n)) (fun _ _ => b) ?_ ?_ <;>
    · intro v b _ j hj
      have hj := mem_range.1 hj
      have e1 : (b * (n * n) + j) / (n * n) = b := by
        rw [Nat.mul_comm, Nat.mul_add_div hnn, Nat.div_eq_of_lt hj, Nat.add_zero]
      have e2 : (b * (n * n) + j) % (n * n) = j := by rw [Nat.mul_comm, Nat.mul_add_mod, Nat.mod_eq_of_lt hj]
      unfold eightSubV
      rw [e1, e2]
  have t := transp_op (c := c) (b := n * n) (n := 8) (f := √(n * n : ℕ) * (scR (8 * (n * n)) mode * f))
    (g := √(n * n : ℕ) * (scR (8 * (n * n)) mode * (√(8 : ℕ) * g))) (mul_nonneg (Real.sqrt_nonneg _) hf2)
  rw [Nat.mul_comm (n * n) 8] at t
  have h8 := one_le_sqrt (n := 8) (by omega)
  have c1 := comp a1 a2 (by push_cast at h8; nlinarith) (le_of_eq (by push_cast; ring))
  have c2 := comp c1 t (by
    have h1 : 0 ≤ √(n * n : ℕ) * (scR (8 * (n * n)) mode * f) := mul_nonneg (Real.sqrt_nonneg _) hf2
    push_cast at h8 h1 ⊢
    nlinarith) (le_of_eq (by push_cast; ring))
  refine Op.mono (S := eightPure inv mode n) (S' := eightPure inv mode n) c2 (le_of_eq ?_) (by omega) le_rfl le_rfl
  push_cast
  rw [Real.sqrt_mul (by norm_num) ((n:ℝ) * n)]; ring

theorem sixOut_op (hK : 1000 ≤ c.K) {l : ℕ} (hN : N = 2 ^ l) (hl : 1 ≤ l)
    (h31 : N ≤ 2 ^ 31) (h : Range c N f g) (hm : c.m0 ≤ scR N mode * f) :
    c.Op (range N) (sixOut inv mode l) (sixOut inv mode l) (√N * scR N mode) (55 * l) f g := by
  have e1 : sixOut inv mode l = fun v : ℕ → ℂ => sixOut inv mode l v := rfl
  have e2 : sixOut inv mode l = fun v : ℕ → Xmm F => sixOut inv mode l v := rfl
  rw [e1, e2]
  unfold sixOut
  by_cases h5 : l ≤ 5
  · simp only [if_pos h5]
    subst hN
    exact (rec8_op L hK rfl hl h31 h hm).mono le_rfl (by omega) le_rfl le_rfl
  · simp only [if_neg h5]
    by_cases h2 : l % 2 = 1
    · simp only [if_pos h2]
      have e := pow_split_odd h5 h2
      rw [hN, e] at h31 h hm ⊢
      exact (eight_op L hK rfl (by omega) h31 h hm).mono le_rfl (by omega) le_rfl le_rfl
    · simp only [if_neg h2]
      have e : 2 ^ l = 2 ^ (l / 2) * 2 ^ (l / 2) := by rw [← pow_add]; congr 1; omega
      rw [hN, e] at h31 h hm ⊢
      exact (six_op L hK rfl (by omega) h31 h hm).mono le_rfl (by omega) le_rfl le_rfl

end six
end Flt.Op
end OTFFT
