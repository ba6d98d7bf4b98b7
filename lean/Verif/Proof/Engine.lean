/-
The transforms of `FFT0` and `FFT` as functions on arrays, and as DFTs.
-/
import Verif.Proof.Objects

noncomputable section

namespace OTFFT

variable {F C : Type} [DArith F] [CArith F C]

/-- what a Stockham class computes, any arithmetic -/
def stockOut (C : Type) [CArith F C] (th : Nat) (dit : Bool) (rad : Radix) (inv : Bool)
    (mode : ScaleMode) (N : Nat) (v : Nat → C) : Nat → C :=
  match dit, rad with
  | false, .r4 => difRec 4 (bf4 inv) inv (stockhamTw C (pathOf th N) 4 N inv) mode N 1 v
  | false, .r8 => difRec 8 (bf8 inv) inv (stockhamTw C (pathOf th N) 8 N inv) mode N 1 v
  | false, .r16 => difRec 16 (bf16 inv) inv (stockhamTw C (pathOf th N) 16 N inv) mode N 1 v
  | true, .r4 => ditRec 4 (bf4 inv) inv (stockhamTw C (pathOf th N) 4 N inv) mode N 1 v
  | true, .r8 => ditRec 8 (bf8 inv) inv (stockhamTw C (pathOf th N) 8 N inv) mode N 1 v
  | true, .r16 => ditRec 16 (bf16 inv) inv (stockhamTw C (pathOf th N) 16 N inv) mode N 1 v

/-- what an algorithm object computes, any arithmetic -/
def algoOut (C : Type) [CArith F C] (thr : Thr) (kind : AlgoKind) (inv : Bool) (mode : ScaleMode) (n : Nat)
    (v : Nat → C) : Nat → C :=
  match kind with
  | .stock dit rad => stockOut C (thr.of dit rad) dit rad inv mode n v
  | .six => sixOut inv mode (logLoop n) v
  | .mixed => mixOut C inv mode n v

/-- what `FFT0` computes, any arithmetic -/
def fftOut (C : Type) [CArith F C] (thr : Thr) (inv : Bool) (mode : ScaleMode) (n : Nat)
    (v : Nat → C) : Nat → C :=
  match dispatch (logOf n) with
  | none => v
  | some kind => algoOut C thr kind inv mode n v

theorem stockItems_good {R D : Set Loc} {th : Nat} {dit : Bool} {rad : Radix} {inv : Bool}
    {mode : ScaleMode} {k : Nat} {x y W : Ptr} {v : Nat → C} {h : Heap C} (hk : 1 ≤ k)
    (hax : Arr h x (2 ^ k) v) (hay : Alloc h y (2 ^ k)) (hxy : Sep x (2 ^ k) y (2 ^ k))
    (hT : TabOK C th rad.num (2 ^ k) h W) (hWx : W.buf ≠ x.buf) (hWy : W.buf ≠ y.buf)
    (hRx : Region x (2 ^ k) ⊆ R) (hRy : Region y (2 ^ k) ⊆ R) (hRW : ∀ n, Region W n ⊆ R)
    (hDx : Region x (2 ^ k) ⊆ D) (hDy : Region y (2 ^ k) ⊆ D) :
    ∃ h', Good R D (Items.region (stockItems C dit rad inv (pathOf th (2 ^ k)) mode (2 ^ k) x y W)) h h' ∧
      Arr h' x (2 ^ k) (stockOut C th dit rad inv mode (2 ^ k) v) ∧
      ∀ l, l ∉ Region x (2 ^ k) → l ∉ Region y (2 ^ k) → h' l = h l := by
  have sh : ∀ {r L}, (r = 4 ∨ r = 8 ∨ r = 16) → (L = 4 ∨ L = 2) → Shape r L k (2 ^ k) 1 (2 ^ k) :=
    fun hr hL => { hr := hr, hL := hL, hk := hk, hn := rfl, hs := Or.inl rfl, hpos := le_refl _, hN := by omega }
  cases dit <;> cases rad
  · exact difFFT_good (lane_bf4 inv) _ k 1 _ false x y v h (sh (by omega) (by omega)) hax hay hxy
      (fun hr => hT hr inv) hWx hWy hRx hRy (fun _ => hRW _) hDx hDy
  · exact difFFT_good (lane_bf8 inv) _ k 1 _ false x y v h (sh (by omega) (by omega)) hax hay hxy
      (fun hr => hT hr inv) hWx hWy hRx hRy (fun _ => hRW _) hDx hDy
  · exact difFFT_good (lane_bf16 inv) _ k 1 _ false x y v h (sh (by omega) (by omega)) hax hay hxy
      (fun hr => hT hr inv) hWx hWy hRx hRy (fun _ => hRW _) hDx hDy
  · exact ditFFT_good (lane_bf4 inv) _ k 1 _ false x y v h (sh (by omega) (by omega)) hax hay hxy
      (fun hr => hT hr inv) hWx hWy hRx hRy (fun _ => hRW _) hDx hDy
  · exact ditFFT_good (lane_bf8 inv) _ k 1 _ false x y v h (sh (by omega) (by omega)) hax hay hxy
      (fun hr => hT hr inv) hWx hWy hRx hRy (fun _ => hRW _) hDx hDy
  · exact ditFFT_good (lane_bf16 inv) _ k 1 _ false x y v h (sh (by omega) (by omega)) hax hay hxy
      (fun hr => hT hr inv) hWx hWy hRx hRy (fun _ => hRW _) hDx hDy

theorem Algo.transform_good {R D : Set Loc} {thr : Thr} {o : Algo} {n : Nat} {inv : Bool}
    {mode : ScaleMode} {x y : Ptr} {v : Nat → C} {h : Heap C} (hn : ValidLen n)
    (hr : o.Ready C thr n h) (hd : o.kind.Usable n)
    (hax : Arr h x n v) (hay : Alloc h y n) (hxy : Sep x n y n)
    (hWx : o.W.buf ≠ x.buf) (hWy : o.W.buf ≠ y.buf)
    (hWmx : o.Wm.buf ≠ x.buf) (hWmy : o.Wm.buf ≠ y.buf)
    (hWsx : o.Ws.buf ≠ x.buf) (hWsy : o.Ws.buf ≠ y.buf)
    (hRx : Region x n ⊆ R) (hRy : Region y n ⊆ R)
    (hRW : ∀ m, Region o.W m ⊆ R) (hRWm : ∀ m, Region o.Wm m ⊆ R) (hRWs : ∀ m, Region o.Ws m ⊆ R)
    (hDx : Region x n ⊆ D) (hDy : Region y n ⊆ D) :
    ∃ h', Good R D (o.transform C thr inv mode x y) h h' ∧
      Arr h' x n (algoOut C thr o.kind inv mode n v) ∧
      ∀ l, l ∉ Region x n → l ∉ Region y n → h' l = h l := by
  unfold Algo.transform algoOut
  unfold Algo.Ready at hr
  split
  · rename_i dit rad hk
    rw [hk] at hr hd ⊢
    obtain ⟨k, hnk, h2, h3⟩ := hd
    have hlog : o.logN = k := Nat.pow_right_injective (le_refl 2) (hr.1.symm.trans hnk)
    simp only
    rw [hlog]
    unfold stockRun
    rw [if_neg (by omega)]
    subst hnk
    exact stockItems_good h2 hax hay hxy hr.2 hWx hWy hRx hRy hRW hDx hDy
  · rename_i hk
    rw [hk] at hr hd ⊢
    obtain ⟨k, hnk, h2, h3⟩ := hd
    have hlog : o.logN = k := Nat.pow_right_injective (le_refl 2) (hr.1.symm.trans hnk)
    simp only
    rw [hlog] at hr ⊢
    subst hnk
    rw [logLoop_pow]
    exact sixRun_good (by omega) h3 hax hay hxy hr.2 hWx hWy hWmx hWmy hWsx hWsy hRx hRy (hRW _) (hRWm _)
      (hRWs _) hDx hDy
  · rename_i hk
    rw [hk] at hr ⊢
    rw [hr.1]
    have := hn.two
    exact mixRun_good (by omega) hn.small hax hay hxy (hr.2 (by omega)) hWx hWy hRx hRy (hRW _) hDx hDy

/-- direction of an entry point -/
def Entry.isInv : Entry → Bool
  | .fwd | .fwd0 | .fwdu | .fwdn => false
  | .inv | .inv0 | .invu | .invn => true

/-- normalisation of an entry point -/
def Entry.mode : Entry → ScaleMode
  | .fwd | .fwdn | .invn => .scale_length
  | .fwd0 | .inv | .inv0 => .scale_1
  | .fwdu | .invu => .scale_unitary

theorem FFT0.call_eq (thr : Thr) (o : FFT0) (e : Entry) (x y : Ptr) :
    o.call C thr e x y = o.obj_call C thr e.isInv e.mode x y := by
  cases e <;> rfl

theorem FFT0.call_good {R D : Set Loc} {thr : Thr} {o : FFT0} {n : Nat} {e : Entry}
    {x y : Ptr} {v : Nat → C} {h : Heap C} (hn : ValidLen n) (hr : o.Ready C thr n h)
    (hax : Arr h x n v) (hay : Alloc h y n) (hxy : Sep x n y n)
    (hx : x.buf ∉ insert 0 {b | b ∈ o.blocks}) (hy : y.buf ∉ insert 0 {b | b ∈ o.blocks})
    (hRx : Region x n ⊆ R) (hRy : Region y n ⊆ R)
    (hRo : ∀ l : Loc, l.1 ∈ insert 0 {b | b ∈ o.blocks} → l ∈ R)
    (hDx : Region x n ⊆ D) (hDy : Region y n ⊆ D) :
    ∃ h', Good R D (o.call C thr e x y) h h' ∧
      Arr h' x n (fftOut C thr e.isInv e.mode n v) ∧
      ∀ l, l ∉ Region x n → l ∉ Region y n → h' l = h l := by
  rw [FFT0.call_eq]
  unfold FFT0.obj_call fftOut
  have := hr.obj
  split at this
  · rename_i hd
    have := logOf_some (dispatch_none hd)
    have := hn.two
    omega
  · rename_i kind hd
    obtain ⟨a, ha, hk, hp, hra⟩ := this
    rw [ha]
    rw [FFT0.blocks, ha] at hx hy hRo
    have inE : ∀ {p : Ptr}, (p.buf = 0 ∨ p.buf ∈ a.blocks) → p.buf ∈ insert 0 {b | b ∈ a.blocks} :=
      fun h => h
    have ne : ∀ {p q : Ptr}, p.buf ∈ insert 0 {b | b ∈ a.blocks} → q.buf ∉ insert 0 {b | b ∈ a.blocks} →
        p.buf ≠ q.buf := fun h1 h2 e => h2 (e ▸ h1)
    have reg : ∀ {p : Ptr} (_ : p.buf ∈ insert 0 {b | b ∈ a.blocks}) (m : Nat), Region p m ⊆ R := by
      rintro p h m l ⟨i, _, rfl⟩
      exact hRo _ h
    subst hk
    rw [hd]
    exact Algo.transform_good hn hra (AlgoKind.usable_of_dispatch hd) hax hay hxy (ne (inE hp.W) hx) (ne (inE hp.W) hy)
      (ne (inE hp.Wm) hx) (ne (inE hp.Wm) hy) (ne (inE hp.Ws) hx) (ne (inE hp.Ws) hy) hRx hRy
      (reg (inE hp.W)) (reg (inE hp.Wm)) (reg (inE hp.Ws)) hDx hDy

/-! ### exact values -/

theorem stockOut_C {th : ℕ} {dit : Bool} {rad : Radix} {inv : Bool} {mode : ScaleMode} {k : ℕ}
    (hk : 1 ≤ k) (v : ℕ → ℂ) {t : ℕ} (ht : t < 2 ^ k) :
    stockOut ℂ th dit rad inv mode (2 ^ k) v t = scC (2 ^ k) mode * xdft inv (2 ^ k) v t := by
  have sh : ∀ {r L}, (r = 4 ∨ r = 8 ∨ r = 16) → (L = 4 ∨ L = 2) → Shape r L k (2 ^ k) 1 (2 ^ k) :=
    fun hr hL => { hr := hr, hL := hL, hk := hk, hn := rfl, hs := Or.inl rfl, hpos := le_refl _, hN := by omega }
  rw [← xdft_smul, ← sdft_one]
  cases dit <;> cases rad
  · exact difRec_dft (L := 4) (bf4_good inv) _ k 1 _ v (sh (by omega) (by omega)) (fun _ => stockhamTw_C _ _ _ _) t ht
  · exact difRec_dft (L := 4) (bf8_good inv) _ k 1 _ v (sh (by omega) (by omega)) (fun _ => stockhamTw_C _ _ _ _) t ht
  · exact difRec_dft (L := 4) (bf16_good inv) _ k 1 _ v (sh (by omega) (by omega)) (fun _ => stockhamTw_C _ _ _ _) t ht
  · exact ditRec_dft (L := 4) (bf4_good inv) _ k 1 _ v (sh (by omega) (by omega)) (fun _ => stockhamTw_C _ _ _ _) t ht
  · exact ditRec_dft (L := 4) (bf8_good inv) _ k 1 _ v (sh (by omega) (by omega)) (fun _ => stockhamTw_C _ _ _ _) t ht
  · exact ditRec_dft (L := 4) (bf16_good inv) _ k 1 _ v (sh (by omega) (by omega)) (fun _ => stockhamTw_C _ _ _ _) t ht

theorem algoOut_C {thr : Thr} {kind : AlgoKind} {inv : Bool} {mode : ScaleMode} {n : ℕ} (hk : kind.Usable n)
    (hn : 2 ≤ n) (v : ℕ → ℂ) {t : ℕ} (ht : t < n) :
    algoOut ℂ thr kind inv mode n v t = scC n mode * xdft inv n v t := by
  unfold algoOut
  cases kind with
  | stock dit rad =>
    obtain ⟨k, rfl, h2, h3⟩ := hk
    exact stockOut_C h2 v ht
  | six =>
    obtain ⟨k, rfl, h2, h3⟩ := hk
    simp only [logLoop_pow]
    exact sixOut_C (by omega) v ht
  | mixed => exact mixOut_C inv mode (by omega) v ht

theorem fftOut_C {thr : Thr} {inv : Bool} {mode : ScaleMode} {n : ℕ} (hn : 2 ≤ n) (v : ℕ → ℂ) {t : ℕ}
    (ht : t < n) : fftOut ℂ thr inv mode n v t = scC n mode * xdft inv n v t := by
  unfold fftOut
  cases hd : dispatch (logOf n) with
  | none =>
    have := logOf_some (dispatch_none hd)
    omega
  | some kind => exact algoOut_C (AlgoKind.usable_of_dispatch hd) hn v ht

end OTFFT
