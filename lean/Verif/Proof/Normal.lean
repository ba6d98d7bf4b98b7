/-
Transforms with and without normalisation: the run that normalises differs by the factor, if the arithmetic of the data commutes with it.
-/
import Verif.Proof.Hom

noncomputable section

namespace OTFFT.LinLaws

variable {E A F C : Type} [DArith E] [CArith E A] [DArith F] [CArith F C] {R₀ R : A → C → C → Prop} {mode : ScaleMode} {inv : Bool}
  {u : ℕ → A} {v v' : ℕ → C} {M : ℕ}

/-- the factor of a transform of length `M` leads from `R₀` to `R` -/
def Scales (R₀ R : A → C → C → Prop) (mode : ScaleMode) (M : ℕ) : Prop := ∀ c a a', R₀ c a a' → R c a (scalepz M mode a')

/-- the same if the factor is put into a twiddle factor -/
def ScalesTw (R₀ R : A → C → C → Prop) (mode : ScaleMode) (M : ℕ) : Prop := ∀ c a a' (inv : Bool) (n p q : ℕ), M = n * n → R₀ c a a' →
  R (mulpz (cj inv (sixTw A n p q)) c) (mulpz (cj inv (sixTw C n p q)) a) (mulpz (scalepz M mode (cj inv (sixTw C n p q))) a')

theorem endPure_eq {n s : ℕ} (hn : n = 2 ∨ n = 4 ∨ n = 8 ∨ n = 16) (v : ℕ → C) :
    endPure inv mode n s v = endPure inv .scale_1 n s fun t => scalepz (n * s) mode (v t) := by
  rcases hn with rfl | rfl | rfl | rfl <;> rfl

theorem endPure_norm (L : LinLaws R) (hs : Scales R₀ R mode M) {n s : ℕ} (hn : n = 2 ∨ n = 4 ∨ n = 8 ∨ n = 16)
    (hN : M = n * s) (hv : ∀ t < M, R₀ (u t) (v t) (v' t)) :
    ∀ t < M, R (endPure inv .scale_1 n s u t) (endPure inv .scale_1 n s v t) (endPure inv mode n s v' t) := by
  intro t ht
  rw [endPure_eq hn v', ← hN]
  exact L.endPure_hom hn hN (fun t ht => hs _ _ _ (hv t ht)) t ht

section recs
variable {q e : ℕ} [NeZero q] {B : BF q} {S : ℕ → Fin (q - 1) → A} {T : ℕ → Fin (q - 1) → C}

theorem difRec_norm (L₀ : LinLaws R₀) (L : LinLaws R) (hs : Scales R₀ R mode M) (hB₀ : Bfly R₀ B) (hq : q = 2 ^ e) (e2 : 2 ≤ e) (e4 : e ≤ 4) (l : ℕ) :
    ∀ {n s : ℕ} {u : ℕ → A} {v v' : ℕ → C}, n = 2 ^ l → 1 ≤ l → M = n * s → (∀ t < M, R₀ (u t) (v t) (v' t)) →
      ∀ t < M, R (difRec q B inv S .scale_1 n s u t) (difRec q B inv T .scale_1 n s v t) (difRec q B inv T mode n s v' t) := by
  induction l using Nat.strong_induction_on with
  | _ l ih =>
    intro n s u v v' hn hl hN hv t ht
    have hr := le16 hq e2 e4
    rw [difRec.eq_def q B inv S .scale_1 n s u, difRec.eq_def q B inv T .scale_1 n s v, difRec.eq_def q B inv T mode n s v']
    by_cases hc : n ≤ q ∨ q < 2
    · rw [dif_pos hc, dif_pos hc, dif_pos hc]
      have hnr : n ≤ 16 := by omega
      exact L.endPure_norm hs (by rw [hn] at hnr ⊢; exact pow_le_16 hl hnr) hN hv t ht
    · rw [dif_neg hc, dif_neg hc, dif_neg hc]
      obtain ⟨hel, hd, hN1, hN2⟩ := split hq hn hN (by omega)
      refine ih (l - e) (by omega) hd (by omega) hN2 (dif_stage hN1 (fun p _ ys xs xs' h i => ?_) hv) t ht
      exact L₀.difOut_hom hB₀ _ _ ys xs xs' h i

theorem ditRec_norm (L : LinLaws R) (hs : Scales R₀ R mode M) (hB : Bfly R B) (hq : q = 2 ^ e) (e2 : 2 ≤ e) (e4 : e ≤ 4) (l : ℕ) :
    ∀ {n s : ℕ} {u : ℕ → A} {v v' : ℕ → C}, n = 2 ^ l → 1 ≤ l → M = n * s → (∀ t < M, R₀ (u t) (v t) (v' t)) →
      ∀ t < M, R (ditRec q B inv S .scale_1 n s u t) (ditRec q B inv T .scale_1 n s v t) (ditRec q B inv T mode n s v' t) := by
  induction l using Nat.strong_induction_on with
  | _ l ih =>
    intro n s u v v' hn hl hN hv t ht
    have hr := le16 hq e2 e4
    rw [ditRec.eq_def q B inv S .scale_1 n s u, ditRec.eq_def q B inv T .scale_1 n s v, ditRec.eq_def q B inv T mode n s v']
    by_cases hc : n ≤ q ∨ q < 2
    · rw [dif_pos hc, dif_pos hc, dif_pos hc]
      have hnr : n ≤ 16 := by omega
      exact L.endPure_norm hs (by rw [hn] at hnr ⊢; exact pow_le_16 hl hnr) hN hv t ht
    · rw [dif_neg hc, dif_neg hc, dif_neg hc]
      obtain ⟨hel, hd, hN1, hN2⟩ := split hq hn hN (by omega)
      exact dit_stage hN1 (fun p _ ys xs xs' h i => L.ditOut_hom hB _ _ ys xs xs' h i)
        (ih (l - e) (by omega) hd (by omega) hN2 hv) t ht

end recs

theorem stockOut_norm (L₀ : LinLaws R₀) (L : LinLaws R) (hs : Scales R₀ R mode M) {th : ℕ} {dit : Bool} {rad : Radix} {l : ℕ} (hN : M = 2 ^ l) (hl : 1 ≤ l)
    (hv : ∀ t < M, R₀ (u t) (v t) (v' t)) :
    ∀ t < M, R (stockOut A th dit rad inv .scale_1 M u t) (stockOut C th dit rad inv .scale_1 M v t) (stockOut C th dit rad inv mode M v' t) := by
  cases dit <;> cases rad
  · exact L₀.difRec_norm L hs (e := 2) (L₀.bfly4 inv) (by norm_num) (by omega) (by omega) l hN hl (by omega) hv
  · exact L₀.difRec_norm L hs (e := 3) (L₀.bfly8 inv) (by norm_num) (by omega) (by omega) l hN hl (by omega) hv
  · exact L₀.difRec_norm L hs (e := 4) (L₀.bfly16 inv) (by norm_num) (by omega) (by omega) l hN hl (by omega) hv
  · exact L.ditRec_norm hs (e := 2) (L.bfly4 inv) (by norm_num) (by omega) (by omega) l hN hl (by omega) hv
  · exact L.ditRec_norm hs (e := 3) (L.bfly8 inv) (by norm_num) (by omega) (by omega) l hN hl (by omega) hv
  · exact L.ditRec_norm hs (e := 4) (L.bfly16 inv) (by norm_num) (by omega) (by omega) l hN hl (by omega) hv

section six
variable {n : ℕ}
open ApLaws (mod_lt_of rc_lt)

theorem six_norm (L₀ : LinLaws R₀) (L : LinLaws R) (ht : ScalesTw R₀ R mode (n * n)) {l : ℕ} (hn : n = 2 ^ l) (hl : 1 ≤ l)
    (hv : ∀ t < n * n, R₀ (u t) (v t) (v' t)) :
    ∀ t < n * n, R (sixPure inv .scale_1 n u t) (sixPure inv .scale_1 n v t) (sixPure inv mode n v' t) := by
  refine transp_hom (L.rows_hom hn hl fun t h => ?_)
  exact ht _ _ _ inv n _ _ rfl (L₀.rows_hom (inv := inv) hn hl (transp_hom hv) (t / n + t % n * n) (rc_lt (Nat.div_lt_of_lt_mul h) (mod_lt_of h)))

theorem eightPre_eq {N1 : ℕ} (v : ℕ → C) : eightPreV inv mode N1 v = eightPreV inv .scale_1 N1 fun t => scalepz (8 * N1) mode (v t) := rfl

theorem eight_norm (L : LinLaws R) (hs : Scales R₀ R mode (8 * (n * n))) {l : ℕ} (hn : n = 2 ^ l) (hl : 1 ≤ l) (hv : ∀ t < 8 * (n * n), R₀ (u t) (v t) (v' t)) :
    ∀ t < 8 * (n * n), R (eightPure inv .scale_1 n u t) (eightPure inv .scale_1 n v t) (eightPure inv mode n v' t) := by
  have e : eightPure inv mode n v' = eightPure inv .scale_1 n fun t => scalepz (8 * (n * n)) mode (v' t) := rfl
  rw [e]
  exact L.eight_hom hn hl fun t ht => hs _ _ _ (hv t ht)

theorem sixOut_norm (L₀ : LinLaws R₀) (L : LinLaws R) (hs : Scales R₀ R mode M) (htw : ScalesTw R₀ R mode M) {l : ℕ} (hN : M = 2 ^ l) (hl : 1 ≤ l)
    (hv : ∀ t < M, R₀ (u t) (v t) (v' t)) :
    ∀ t < M, R (sixOut inv .scale_1 l u t) (sixOut inv .scale_1 l v t) (sixOut inv mode l v' t) := by
  intro t ht
  unfold sixOut
  by_cases h5 : l ≤ 5
  · rw [if_pos h5, if_pos h5, if_pos h5]
    subst hN
    exact L₀.difRec_norm L hs (e := 3) (L₀.bfly8 inv) (by norm_num) (by omega) (by omega) l rfl hl (by omega) hv t ht
  · rw [if_neg h5, if_neg h5, if_neg h5]
    by_cases h2 : l % 2 = 1
    · rw [if_pos h2, if_pos h2, if_pos h2]
      have e := pow_split_odd h5 h2
      rw [hN, e] at hv ht hs
      exact L.eight_norm hs rfl (by omega) hv t ht
    · rw [if_neg h2, if_neg h2, if_neg h2]
      have e : 2 ^ l = 2 ^ (l / 2) * 2 ^ (l / 2) := by rw [← pow_add]; congr 1; omega
      rw [hN, e] at hv ht htw
      exact L₀.six_norm L htw rfl (by omega) hv t ht

end six

theorem fftOut_norm (L₀ : LinLaws R₀) (L : LinLaws R) {thr : Thr} (hs : Scales R₀ R mode M) (htw : ScalesTw R₀ R mode M)
    (hm : ∀ c a a', R₀ c a a' → R c a (OTFFT.mixScale M mode a')) (hn : ∃ k, 1 ≤ k ∧ M = 2 ^ k) (hv : ∀ t < M, R₀ (u t) (v t) (v' t)) :
    ∀ t < M, R (fftOut A thr inv .scale_1 M u t) (fftOut C thr inv .scale_1 M v t) (fftOut C thr inv mode M v' t) := by
  obtain ⟨k, hk, hM⟩ := hn
  have h2 : 2 ≤ M := by
    rw [hM]
    calc 2 = 2 ^ 1 := rfl
      _ ≤ 2 ^ k := Nat.pow_le_pow_right (by omega) hk
  intro t ht
  unfold fftOut
  cases hd : dispatch (logOf M) with
  | none =>
    have := dispatch_none hd
    rw [hM, logOf_pow] at this
    simp only [Option.some.injEq] at this
    omega
  | some kind =>
    have hk := AlgoKind.usable_of_dispatch hd
    show R (algoOut A thr kind inv .scale_1 M u t) (algoOut C thr kind inv .scale_1 M v t) (algoOut C thr kind inv mode M v' t)
    unfold algoOut
    cases kind with
    | stock dit rad =>
      obtain ⟨l, hl', hl, _⟩ := hk
      exact L₀.stockOut_norm L hs hl' hl hv t ht
    | six =>
      obtain ⟨l, hl', hl, _⟩ := hk
      have := L₀.sixOut_norm (inv := inv) L hs htw hl' hl hv t ht
      rwa [show logLoop M = l by rw [hl', logLoop_pow]]
    | mixed => exact hm _ _ _ (L₀.mixRec_hom M (s := 1) (.inr ⟨k, hM⟩) (by omega) h2 hv t ht)

end OTFFT.LinLaws
