/-
Error analysis of the whole transforms.
-/
import Verif.Proof.ApLaws

namespace OTFFT
namespace ApLaws
variable {F C : Type} [DArith F] [CArith F C] {Ap : ℂ → C → ℝ → ℕ → Prop} {m0 G : ℝ}
  {mode : ScaleMode} {inv : Bool} {v : ℕ → ℂ} {v' : ℕ → C} {M : ℝ} {k : ℕ}

/-! ### Stockham -/

theorem stTw_le (path : Path) : 2 + stTw path 4 + 4 ≤ 45 * 2 ∧ 7 + stTw path 8 + 4 ≤ 45 * 3 ∧
    13 + stTw path 16 + 4 ≤ 45 * 4 := by
  cases path <;> simp [stTw, twK]

theorem stockOut_ap (L : ApLaws Ap m0 G) {th : ℕ} {dit : Bool} {rad : Radix} {l N : ℕ} (hN : N = 2 ^ l) (hl : 1 ≤ l)
    (h31 : N ≤ 2 ^ 31) (hG : N * M ≤ G) (hm : m0 ≤ scR N mode * M) (hv : ∀ t < N, Ap (v t) (v' t) M k) :
    ∀ t < N, Ap (stockOut ℂ th dit rad inv mode N v t) (stockOut C th dit rad inv mode N v' t) (N * (scR N mode * M))
      (k + 45 * l) := by
  have h1 : 1 ≤ N := by rw [hN]; exact Nat.one_le_two_pow
  have hc := stTw_le (pathOf th N)
  have r4 : RecOK Ap 4 2 (stTw (pathOf th N) 4) 2 45 N (bf4 inv) (stockhamTw ℂ (pathOf th N) 4 N inv)
      (stockhamTw C (pathOf th N) 4 N inv) :=
    ⟨by norm_num, by omega, by omega, L.bfly4 inv, fun p hp i => L.stockhamTw_ap inv h31 (by omega) hp i, hc.1, by omega⟩
  have r8 : RecOK Ap 8 3 (stTw (pathOf th N) 8) 7 45 N (bf8 inv) (stockhamTw ℂ (pathOf th N) 8 N inv)
      (stockhamTw C (pathOf th N) 8 N inv) :=
    ⟨by norm_num, by omega, by omega, L.bfly8 inv, fun p hp i => L.stockhamTw_ap inv h31 (by omega) hp i, hc.2.1, by omega⟩
  have r16 : RecOK Ap 16 4 (stTw (pathOf th N) 16) 13 45 N (bf16 inv) (stockhamTw ℂ (pathOf th N) 16 N inv)
      (stockhamTw C (pathOf th N) 16 N inv) :=
    ⟨by norm_num, by omega, by omega, L.bfly16 inv, fun p hp i => L.stockhamTw_ap inv h31 (by omega) hp i, hc.2.2,
      by omega⟩
  cases dit <;> cases rad
  · exact L.difRec_ap r4 h1 h31 l hN hl (by omega) hG hm hv
  · exact L.difRec_ap r8 h1 h31 l hN hl (by omega) hG hm hv
  · exact L.difRec_ap r16 h1 h31 l hN hl (by omega) hG hm hv
  · exact L.ditRec_ap r4 h1 h31 l hN hl (by omega) hG hm hv
  · exact L.ditRec_ap r8 h1 h31 l hN hl (by omega) hG hm hv
  · exact L.ditRec_ap r16 h1 h31 l hN hl (by omega) hG hm hv

/-- the single-threaded radix-8 transform -/
theorem rec8_ap (L : ApLaws Ap m0 G) {l N : ℕ} (hN : N = 2 ^ l) (hl : 1 ≤ l)
    (h31 : N ≤ 2 ^ 31) (hG : N * M ≤ G) (hm : m0 ≤ scR N mode * M) (hv : ∀ t < N, Ap (v t) (v' t) M k) :
    ∀ t < N, Ap (difRec 8 (bf8 inv) inv (stockhamTw ℂ .serial 8 N inv) mode N 1 v t)
      (difRec 8 (bf8 inv) inv (stockhamTw C .serial 8 N inv) mode N 1 v' t) (N * (scR N mode * M)) (k + 19 * l) := by
  have h1 : 1 ≤ N := by rw [hN]; exact Nat.one_le_two_pow
  have r8 : RecOK Ap 8 3 37 7 19 N (bf8 inv) (stockhamTw ℂ .serial 8 N inv) (stockhamTw C .serial 8 N inv) :=
    ⟨by norm_num, by omega, by omega, L.bfly8 inv, fun p hp i => L.stockhamTw_ap (path := .serial) inv h31 (by omega) hp i,
      by omega, by omega⟩
  exact L.difRec_ap r8 h1 h31 l hN hl (by omega) hG hm hv

/-! ### six-step and eight-step -/

section six
variable {n : ℕ}

theorem mod_lt_of {t : ℕ} (ht : t < n * n) : t % n < n := Nat.mod_lt _ (Nat.pos_of_ne_zero (by rintro rfl; omega))

theorem rc_lt {a b c : ℕ} (ha : a < n) (hb : b < c) : a + b * n < c * n := by
  calc a + b * n < (b + 1) * n := by rw [Nat.add_mul]; omega
    _ ≤ c * n := Nat.mul_le_mul_right _ hb

theorem scR_one (N : ℕ) : scR N .scale_1 = 1 := rfl

theorem transp_ap (hv : ∀ t < n * n, Ap (v t) (v' t) M k) : ∀ t < n * n, Ap (transpV n v t) (transpV n v' t) M k :=
  fun _ ht => hv _ (rc_lt (Nat.div_lt_of_lt_mul ht) (mod_lt_of ht))

theorem rows_ap (L : ApLaws Ap m0 G) {l : ℕ} (hn : n = 2 ^ l) (hl : 1 ≤ l) (h31 : n ≤ 2 ^ 31) (hG : n * M ≤ G)
    (hv : ∀ t < n * n, Ap (v t) (v' t) M k) :
    ∀ t < n * n, Ap (sixRowsV inv n v t) (sixRowsV inv n v' t) (n * M) (k + 19 * l) := by
  intro t ht
  have h := L.rec8_ap (inv := inv) (mode := .scale_1) (v := fun j => v (t / n * n + j)) (v' := fun j => v' (t / n * n + j))
    hn hl h31 hG (by simpa [scR] using L.pos (hv t ht)) (fun j hj => hv _ (by
      rw [Nat.add_comm]; exact rc_lt hj (Nat.div_lt_of_lt_mul ht))) (t % n) (mod_lt_of ht)
  rw [scR_one, one_mul] at h
  exact h

theorem scR_range (N : ℕ) (mode : ScaleMode) (h1 : 1 ≤ N) (h31 : N ≤ 2 ^ 31) : 1 / 2 ^ 31 ≤ scR N mode ∧ scR N mode ≤ 1 := by
  have hN : (1:ℝ) ≤ N := by exact_mod_cast h1
  have h31' : (N:ℝ) ≤ 2 ^ 31 := by exact_mod_cast h31
  cases mode
  · simp only [scR]; norm_num
  · simp only [scR]
    have h := Real.one_le_sqrt.mpr hN
    have h2 : √(N:ℝ) ≤ N := by
      rw [Real.sqrt_le_left (by linarith)]
      nlinarith
    exact ⟨one_div_le_one_div_of_le (by linarith) (by linarith), by rw [div_le_one (by linarith)]; exact h⟩
  · simp only [scR]
    exact ⟨one_div_le_one_div_of_le (by linarith) h31', by rw [div_le_one (by linarith)]; exact hN⟩

theorem mult_ap (L : ApLaws Ap m0 G) (h31 : n * n ≤ 2 ^ 31) (hG : M ≤ G) (hm : m0 ≤ scR (n * n) mode * M)
    (hv : ∀ t < n * n, Ap (v t) (v' t) M k) :
    ∀ t < n * n, Ap (sixMultV inv mode n v t) (sixMultV inv mode n v' t) (scR (n * n) mode * M) (k + 47) := by
  intro t ht
  have h1 : 1 ≤ n * n := by omega
  obtain ⟨s1, s2⟩ := scR_range (n * n) mode h1 h31
  have hg := L.G_ge
  have hm0 := L.m0_le
  have hm1 : m0 ≤ scR (n * n) mode := le_trans hm0 (le_trans (by norm_num) s1)
  have hg1 : (1:ℝ) ≤ G := le_trans (by norm_num) hg
  have c := mod_lt_of ht
  have r : t / n < n := Nat.div_lt_of_lt_mul ht
  have hw : Ap (sixTw ℂ n (t % n) (t / n)) (sixTw C n (t % n) (t / n)) 1 37 := by
    unfold sixTw
    split
    · exact L.nxn h31 c r
    · exact L.nxn h31 r c
  have hs := L.scale (n * n) mode h1 h31 (L.cj_ap inv hw) hg1 (by rwa [mul_one])
  rw [mul_one] at hs
  have := L.mul hs (hv (t / n + t % n * n) (rc_lt r c)) (by linarith) hG hm
  exact L.mono this le_rfl (by omega)

theorem six_ap (L : ApLaws Ap m0 G) {l : ℕ} (hn : n = 2 ^ l) (hl : 1 ≤ l) (h31 : n * n ≤ 2 ^ 31) (hG : (n * n : ℕ) * M ≤ G)
    (hm : m0 ≤ scR (n * n) mode * M) (hv : ∀ t < n * n, Ap (v t) (v' t) M k) :
    ∀ t < n * n, Ap (sixPure inv mode n v t) (sixPure inv mode n v' t) ((n * n : ℕ) * (scR (n * n) mode * M))
      (k + (38 * l + 47)) := by
  intro t ht
  have h1 : 1 ≤ n := Nat.pos_of_ne_zero (by rintro rfl; omega)
  have h1' : (1:ℝ) ≤ n := by exact_mod_cast h1
  have hnn : n ≤ n * n := Nat.le_mul_of_pos_left n h1
  have h0 : 0 ≤ M := L.nonneg (hv t ht)
  have hs := (scR_pos (n * n) mode (by omega)).le
  have hs1 := (scR_range (n * n) mode (by omega) h31).2
  push_cast at hG ⊢
  have hnM : 0 ≤ n * M := by positivity
  have hg1 : n * M ≤ G := by nlinarith
  have a1 := L.rows_ap (inv := inv) hn hl (by omega) hg1 (transp_ap hv)
  have a2 := L.mult_ap (inv := inv) (mode := mode) h31 hg1 (le_trans hm (by
    rw [← mul_assoc, mul_comm (scR _ _), mul_assoc]
    have : 0 ≤ scR (n * n) mode * M := by positivity
    nlinarith)) a1
  have a3 := L.rows_ap (inv := inv) hn hl (by omega) (by
    have : scR (n * n) mode * (n * (n * M)) ≤ 1 * (n * (n * M)) := mul_le_mul_of_nonneg_right hs1 (by positivity)
    linarith) a2
  exact L.mono (transp_ap a3 t ht) (by linarith) (by omega)

theorem eightPre_ap (L : ApLaws Ap m0 G) {N1 : ℕ} (h31 : 8 * N1 ≤ 2 ^ 31) (hG : M ≤ G)
    (hm : m0 ≤ scR (8 * N1) mode * M) (hv : ∀ t < 8 * N1, Ap (v t) (v' t) M k) :
    ∀ t < 8 * N1, Ap (eightPreV inv mode N1 v t) (eightPreV inv mode N1 v' t) (8 * (scR (8 * N1) mode * M)) (k + 104) := by
  intro t ht
  have h1 : 0 < N1 := by omega
  have hq : t % N1 < N1 := Nat.mod_lt _ h1
  have hw : ∀ i : Fin (8 - 1), Ap (wpow (cj inv (wr1Val ℂ (8 * N1) (t % N1))) (i.val + 1))
      (wpow (cj inv (wr1Val C (8 * N1) (t % N1))) (i.val + 1)) 1 87 := fun i => by
    have := L.wpow_ap (L.cj_ap inv (L.wr1 (N := 8 * N1) (p := t % N1) (r := 8) h31 (by omega) (by omega))) (i.val + 1) (by omega)
    refine L.mono this le_rfl ?_
    have hi := i.isLt
    simp [twK]
    omega
  have := L.difOut_ap (L.bfly8 inv) hw (fun j => scalepz (8 * N1) mode (v (t % N1 + N1 * j.val)))
    (fun j => scalepz (8 * N1) mode (v' (t % N1 + N1 * j.val)))
    (fun j => L.scale (8 * N1) mode (by omega) h31 (hv _ (by
      have hj := j.isLt
      calc t % N1 + N1 * j.val < N1 * (j.val + 1) := by rw [Nat.mul_add]; omega
        _ ≤ N1 * 8 := Nat.mul_le_mul_left _ hj
        _ = 8 * N1 := Nat.mul_comm _ _)) hG hm) (Fin.ofNat 8 (t / N1))
  exact L.mono this (by norm_num) (by omega)

theorem eight_ap (L : ApLaws Ap m0 G) {l : ℕ} (hn : n = 2 ^ l) (hl : 1 ≤ l) (h31 : 8 * (n * n) ≤ 2 ^ 31)
    (hG : (8 * (n * n) : ℕ) * M ≤ G)
    (hm : m0 ≤ scR (8 * (n * n)) mode * M) (hv : ∀ t < 8 * (n * n), Ap (v t) (v' t) M k) :
    ∀ t < 8 * (n * n), Ap (eightPure inv mode n v t) (eightPure inv mode n v' t)
      ((8 * (n * n) : ℕ) * (scR (8 * (n * n)) mode * M)) (k + (38 * l + 151)) := by
  intro t ht
  have h1 : 1 ≤ n * n := by omega
  have h0 : 0 ≤ M := L.nonneg (hv t ht)
  have h1' : (1:ℝ) ≤ n * n := by exact_mod_cast h1
  have hs := (scR_pos (8 * (n * n)) mode (by omega)).le
  have hs1 := (scR_range (8 * (n * n)) mode (by omega) h31).2
  push_cast at hG ⊢
  have hsM : scR (8 * (n * n)) mode * M ≤ M := by nlinarith
  have hsM0 : 0 ≤ scR (8 * (n * n)) mode * M := by positivity
  have a1 := L.eightPre_ap (inv := inv) h31 (by nlinarith) hm hv
  have a2 : ∀ t < 8 * (n * n), Ap (eightSubV inv n (eightPreV inv mode (n * n) v) t)
      (eightSubV inv n (eightPreV inv mode (n * n) v') t) (n * n * (8 * (scR (8 * (n * n)) mode * M))) (k + 104 + (38 * l + 47)) := by
    intro t ht
    have hb : t / (n * n) < 8 := Nat.div_lt_of_lt_mul (by omega)
    have := L.six_ap (inv := inv) (mode := .scale_1) (v := fun j => eightPreV inv mode (n * n) v (t / (n * n) * (n * n) + j))
      (v' := fun j => eightPreV inv mode (n * n) v' (t / (n * n) * (n * n) + j)) hn hl (by omega)
      (by push_cast; nlinarith) (by simpa [scR] using L.pos (a1 t ht))
      (fun j hj => a1 _ (by rw [Nat.add_comm]; exact rc_lt hj hb)) (t % (n * n)) (Nat.mod_lt _ h1)
    rw [scR_one, one_mul] at this
    push_cast at this
    exact this
  have := a2 (t / 8 + n * n * (t % 8)) (by
    have : t / 8 < n * n := by omega
    rw [Nat.mul_comm (n * n)]
    exact rc_lt this (by omega))
  exact L.mono this (by linarith) (by omega)

theorem sixOut_ap (L : ApLaws Ap m0 G) {l N : ℕ} (hN : N = 2 ^ l) (hl : 1 ≤ l)
    (h31 : N ≤ 2 ^ 31) (hG : N * M ≤ G) (hm : m0 ≤ scR N mode * M) (hv : ∀ t < N, Ap (v t) (v' t) M k) :
    ∀ t < N, Ap (sixOut inv mode l v t) (sixOut inv mode l v' t) (N * (scR N mode * M)) (k + 45 * l) := by
  intro t ht
  unfold sixOut
  by_cases h5 : l ≤ 5
  · rw [if_pos h5, if_pos h5]
    subst hN
    exact L.mono (L.rec8_ap rfl hl h31 hG hm hv t ht) le_rfl (by omega)
  · rw [if_neg h5, if_neg h5]
    by_cases h2 : l % 2 = 1
    · rw [if_pos h2, if_pos h2]
      have e := pow_split_odd h5 h2
      rw [hN, e] at h31 hG hm hv ht ⊢
      exact L.mono (L.eight_ap rfl (by omega) h31 hG hm hv t ht) le_rfl (by omega)
    · rw [if_neg h2, if_neg h2]
      have e : 2 ^ l = 2 ^ (l / 2) * 2 ^ (l / 2) := by rw [← pow_add]; congr 1; omega
      rw [hN, e] at h31 hG hm hv ht ⊢
      exact L.mono (L.six_ap rfl (by omega) h31 hG hm hv t ht) le_rfl (by omega)

end six
end ApLaws
end OTFFT
