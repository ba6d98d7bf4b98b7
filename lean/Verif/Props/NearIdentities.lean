/-
C77: the Fourier identities in double precision.
-/
import Verif.Props.Identities
import Verif.Props.Accuracy
import Verif.Props.AccuracyReal
import Verif.Props.Kernels
import Verif.Proof.Peak
import Verif.Spec.NearIdentities

namespace OTFFT.Props
open OTFFT Finset

variable {n : ℕ}

/-- the result of a computation is unique, in any arithmetic -/
theorem computes_unique {C : Type} {X : Cls C} {cs : List X.Call} {w : World C} {out : Ptr} {m : ℕ} {r r' : ℕ → C}
    (hw : w.live.Finite) (h : Computes X n cs w out m r) (h' : Computes X n cs w out m r') : ∀ k < m, r k = r' k := by
  intro k hk
  obtain ⟨ok, w', hr, hok, hq⟩ := Act.wp_exists_ok h.1 h.2 hw
  subst hok
  have e1 := (hq.2.1 rfl).1 k hk
  have e2 := ((Act.wp_runs h'.1 hr).2.1 rfl).1 k hk
  exact Option.some.inj (Option.some.inj (e1.symm.trans e2))

/-- the exact identities, for `Entry.exact` -/
theorem exact_identities (hn : 0 < n) : FourierIdentities n fun e u U => ∀ k < n, U k = e.exact n u k :=
  identities_of hn fun e u U => by simp only [exact_eq]

theorem factor_nonneg (e : Entry) : 0 ≤ e.factor n := by cases e <;> simp [Entry.factor] <;> positivity

/-- an accurate transform has the identities up to rounding -/
theorem near_of (hn : 0 < n) (h31 : n ≤ 2 ^ 31) {G : Entry → (ℕ → ℂ) → (ℕ → ℂ) → Prop} {tol : ℝ}
    (hG : ∀ e u U, G e u U → ∀ k < n, ‖U k - e.exact n u k‖ ≤ e.factor n * n * tol) : NearIdentities n G tol := by
  have H := exact_identities hn
  -- the second transform against the exact transform of the intended input
  have near : ∀ {e v V} (x : ℕ → ℂ) {δ}, G e v V → (∀ j < n, ‖v j - x j‖ ≤ δ) →
      ∀ k < n, ‖V k - e.exact n x k‖ ≤ e.factor n * n * (δ + tol) := by
    intro e v V x δ hV hd k hk
    have h1 := hG e v V hV k hk
    have h2 := exact_norm hn h31 e hd k
    rw [← exact_sub] at h2
    calc ‖V k - e.exact n x k‖ = ‖(V k - e.exact n v k) + (e.exact n v k - e.exact n x k)‖ := by ring_nf
      _ ≤ _ := norm_add_le _ _
      _ ≤ _ := by linarith
  -- the intended result against its exact value
  have fin : ∀ {e : Entry} {A B D : ℂ} {δ s : ℝ}, ‖A - B‖ ≤ e.factor n * n * (δ + tol) → ‖D - B‖ ≤ e.factor n * n * s →
      ‖A - D‖ ≤ e.factor n * n * (δ + (tol + s)) := by
    intro e A B D δ s h1 h2
    calc ‖A - D‖ = ‖(A - B) - (D - B)‖ := by ring_nf
      _ ≤ _ := norm_sub_le _ _
      _ ≤ _ := by linarith
  have two : ∀ δ : ℝ, δ + 2 * tol = δ + (tol + tol) := fun δ => by ring
  have phase : ∀ {c A B : ℂ}, ‖c‖ = 1 → ‖c * A - c * B‖ = ‖A - B‖ := by
    intro c A B h; rw [← mul_sub, norm_mul, h, one_mul]
  have cj : ∀ {A B : ℂ}, ‖(starRingEnd ℂ) A - (starRingEnd ℂ) B‖ = ‖A - B‖ := by
    intro A B; rw [← map_sub]; exact RCLike.norm_conj _
  have opp : ∀ {e e' : Entry}, (e, e') ∈ opposite → e'.factor n = e.factor n := by
    intro e e' h
    have := scC_factor n e
    rw [← (opposite_mode h).2, scC_factor] at this
    exact_mod_cast this
  refine ⟨?_, ?_, ?_, ?_, ?_, ?_, ?_, ?_, ?_, ?_, ?_⟩
  · intro e u U v V δ hu hv hd k hk
    rw [two]
    exact fin (near u hv hd k hk) (hG e u U hu k hk)
  · intro e a b u U v V x X δ hu hv hx hd k hk
    have h1 := near (fun j => a * u j + b * v j) hx hd k hk
    have e1 : e.exact n (fun j => a * u j + b * v j) k = a * e.exact n u k + b * e.exact n v k := by
      simp only [exact_eq, xdft_sum, mul_sum, ← sum_add_distrib]
      exact sum_congr rfl fun j _ => by ring
    rw [e1] at h1
    have h2 : ‖(a * U k + b * V k) - (a * e.exact n u k + b * e.exact n v k)‖ ≤ e.factor n * n * ((‖a‖ + ‖b‖) * tol) := by
      calc _ = ‖a * (U k - e.exact n u k) + b * (V k - e.exact n v k)‖ := by ring_nf
        _ ≤ _ := norm_add_le _ _
        _ = ‖a‖ * ‖U k - e.exact n u k‖ + ‖b‖ * ‖V k - e.exact n v k‖ := by rw [norm_mul, norm_mul]
        _ ≤ ‖a‖ * (e.factor n * n * tol) + ‖b‖ * (e.factor n * n * tol) :=
            add_le_add (mul_le_mul_of_nonneg_left (hG e u U hu k hk) (norm_nonneg _))
              (mul_le_mul_of_nonneg_left (hG e v V hv k hk) (norm_nonneg _))
        _ = _ := by ring
    have := fin h1 h2
    calc _ ≤ _ := this
      _ = _ := by ring
  · intro e u U v V δ s hu hv hd k hk
    rw [two]
    refine fin (near _ hv hd k hk) ?_
    rw [← H.shift e u (e.exact n u) (fun _ _ => rfl) s k hk, phase (turn_norm _ _)]
    exact hG e u U hu k hk
  · intro e u U v V δ s hu hv hd k hk
    rw [two]
    refine fin (near _ hv hd k hk) ?_
    rw [← H.modulate e u (e.exact n u) (fun _ _ => rfl) s k hk]
    exact hG e u U hu _ (Nat.mod_lt _ hn)
  · intro e u U v V δ hu hv hd k hk
    rw [two]
    refine fin (near _ hv hd k hk) ?_
    rw [← H.reverse e u (e.exact n u) (fun _ _ => rfl) k hk]
    exact hG e u U hu _ (Nat.mod_lt _ hn)
  · intro e u U v V δ hu hv hd k hk
    rw [two]
    refine fin (near _ hv hd k hk) ?_
    rw [← H.conj e u (e.exact n u) (fun _ _ => rfl) k hk, cj]
    exact hG e u U hu _ (Nat.mod_lt _ hn)
  · intro e e' u U v V δ ho hu hv hd k hk
    rw [two, ← opp ho]
    refine fin (near _ hv hd k hk) ?_
    rw [← H.swap e e' u (e.exact n u) ho (fun _ _ => rfl) k hk, opp ho]
    exact hG e u U hu _ (Nat.mod_lt _ hn)
  · intro e e' u U v V δ ho hu hv hd k hk
    rw [two, ← opp ho]
    refine fin (near _ hv hd k hk) ?_
    rw [← H.swapConj e e' u (e.exact n u) ho (fun _ _ => rfl) k hk, cj, opp ho]
    exact hG e u U hu k hk
  · intro e u U v V δ hu hv hd k hk
    have h1 := near U hv hd k hk
    have h2 := exact_norm hn h31 e (hG e u U hu) k
    have h3 : e.exact n (fun j => U j - e.exact n u j) k = e.exact n U k - e.exact n (e.exact n u) k := (exact_sub e _ _ k).symm
    rw [h3, ← H.twice e u (e.exact n u) (fun _ _ => rfl) k hk, norm_sub_rev] at h2
    have h4 := fin (s := e.factor n * n * tol) h1 (by
      calc _ ≤ _ := h2
        _ = _ := by ring)
    calc _ ≤ _ := h4
      _ = _ := by ring
  · intro e a s v V δ hs hv hd k hk
    have h1 := near _ hv hd k hk
    rwa [← H.impulse e a s hs k hk] at h1
  · intro e a s v V δ hs hv hd k hk
    have h1 := near _ hv hd k hk
    rwa [← H.tone e a s hs k hk] at h1

variable {F : Type} [FArith F] [Inhabited F] {val : F → ℝ} {fin : F → Prop} {M : ℝ}

/-- a run is as accurate as the accuracy theorem of its class says -/
theorem runs_err {X : Cls (Xmm F)} {call : Entry → Ptr → X.Call} {e : Entry} {u U : ℕ → ℂ} {B : ℝ}
    (acc : ∀ v : ℕ → Xmm F, (∀ t < n, cfin fin (v t) ∧ ‖cval val (v t)‖ ≤ M) → ∀ w x, UserArray w x n v →
      ∃ out : ℕ → Xmm F, Computes X n [call e x] w x n out ∧
        ∀ t < n, cfin fin (out t) ∧ ‖cval val (out t) - e.exact n (fun j => cval val (v j)) t‖ ≤ B)
    (h : RunsTo val fin M X call n e u U) : ∀ k < n, ‖U k - e.exact n u k‖ ≤ B := by
  intro k hk
  obtain ⟨v, out, hc, hv⟩ := h
  have ok := oneArray_ok n v
  obtain ⟨out', hc', hb⟩ := acc v (fun t ht => ⟨(hv t ht).1, (hv t ht).2.1⟩) _ _ ok
  have := computes_unique (by simp [oneArray]) (hc _ _ ok) hc' k hk
  have hx : e.exact n u k = e.exact n (fun j => cval val (v j)) k := by
    rw [exact_eq, exact_eq, xdft_sum, xdft_sum]
    exact congrArg _ (sum_congr rfl fun j hj => by rw [(hv j (mem_range.1 hj)).2.2.1])
  rw [hx, ← (hv k hk).2.2.2, this]
  exact (hb k hk).2

theorem complex_err (hF : Binary64 F val fin) (i : Target) (thr : Thr) (hn : ValidLen n) (hm : 1 / 2 ^ 970 ≤ M) (hM : n * M ≤ 2 ^ 1019)
    (e : Entry) (u U : ℕ → ℂ) :
    letI := i.arith F
    RunsTo val fin M (complexFFT (Xmm F) thr) (fun e x => (e, x)) n e u U →
      ∀ k < n, ‖U k - e.exact n u k‖ ≤ e.factor n * n * (errWeight n / 2 ^ 52 * M) := by
  letI := i.arith F
  intro h k hk
  refine le_trans (runs_err (B := errWeight n / 2 ^ 52 * (e.factor n * n * M)) ?_ h k hk) (le_of_eq (by ring))
  exact fun v hv w x hx => C46_accuracy hF i thr hn hx hm hM hv e

/-- C77: ComplexFFT in double precision has the Fourier identities up to rounding, for every length. -/
theorem C77_complex (hF : Binary64 F val fin) (i : Target) (thr : Thr) (hn : ValidLen n) (hm : 1 / 2 ^ 970 ≤ M) (hM : n * M ≤ 2 ^ 1019) :
    letI := i.arith F
    NearIdentities n (RunsTo val fin M (complexFFT (Xmm F) thr) (fun e x => (e, x)) n) (errWeight n / 2 ^ 52 * M) := by
  letI := i.arith F
  have h2 := hn.two
  exact near_of (by omega) hn.int.le (complex_err hF i thr hn hm hM)

theorem bluestein_err (hF : Binary64 F val fin) (i : Target) (thr : Thr) (h1 : 1 ≤ n) (h29 : n ≤ 2 ^ 29) (hm : 1 / 2 ^ 970 ≤ M)
    (hM : n * (n * (n * M)) ≤ 2 ^ 1013) (e : Entry) (u U : ℕ → ℂ) :
    letI := i.arith F
    RunsTo val fin M (bluesteinFFT (Xmm F) thr) (fun e x => (e, x)) n e u U →
      ∀ k < n, ‖U k - e.exact n u k‖ ≤ e.factor n * n * ((150 * Nat.clog 2 n + 207) / 2 ^ 52 * (16 * (n * M))) := by
  letI := i.arith F
  intro h k hk
  refine le_trans (runs_err (B := (150 * Nat.clog 2 n + 207) / 2 ^ 52 * (16 * (n * (n * (e.factor n * M))))) ?_ h k hk)
    (le_of_eq (by ring))
  exact fun v hv w x hx => C48_bluestein hF i thr h1 h29 hx hm hM hv e

/-- C77: so has Bluestein's transform, for all lengths up to `2²⁹`. -/
theorem C77_bluestein (hF : Binary64 F val fin) (i : Target) (thr : Thr) (h1 : 1 ≤ n) (h29 : n ≤ 2 ^ 29) (hm : 1 / 2 ^ 970 ≤ M)
    (hM : n * (n * (n * M)) ≤ 2 ^ 1013) :
    letI := i.arith F
    NearIdentities n (RunsTo val fin M (bluesteinFFT (Xmm F) thr) (fun e x => (e, x)) n)
      ((150 * Nat.clog 2 n + 207) / 2 ^ 52 * (16 * (n * M))) := by
  letI := i.arith F
  exact near_of (by omega) (by omega) (bluestein_err hF i thr h1 h29 hm hM)

/-- every vector of finite values in the range has such a run -/
theorem C77_runs (i : Target) (thr : Thr) (hn : ValidLen n) (v : ℕ → Xmm F) (hv : ∀ t < n, cfin fin (v t) ∧ ‖cval val (v t)‖ ≤ M)
    (e : Entry) :
    letI := i.arith F
    ∃ U, RunsTo val fin M (complexFFT (Xmm F) thr) (fun e x => (e, x)) n e (fun t => cval val (v t)) U := by
  letI := i.arith F
  exact ⟨_, v, _, fun w x hx => ⟨FFT.calls (es := [e]) hn hx, FFT.lifetime_noFail _ (by have := hn.two; omega) _ (lenNat_calls _)⟩,
    fun t ht => ⟨(hv t ht).1, (hv t ht).2, rfl, rfl⟩⟩

theorem C77_runs_bluestein (i : Target) (thr : Thr) (h1 : 1 ≤ n) (h29 : n ≤ 2 ^ 29) (v : ℕ → Xmm F)
    (hv : ∀ t < n, cfin fin (v t) ∧ ‖cval val (v t)‖ ≤ M) (e : Entry) :
    letI := i.arith F
    ∃ U, RunsTo val fin M (bluesteinFFT (Xmm F) thr) (fun e x => (e, x)) n e (fun t => cval val (v t)) U := by
  letI := i.arith F
  exact ⟨_, v, _, fun w x hx =>
    ComputesIn.toComputes (Bluestein.computes (thr := thr) hx.wf h1 h29 hx.arr [e]) (Set.empty_subset _) (fun _ _ => rfl),
    fun t ht => ⟨(hv t ht).1, (hv t ht).2, rfl, rfl⟩⟩

theorem computesIn_unique {C : Type} {X : Cls C} {cs : List X.Call} {w : World C} {D : Set Loc} {out : Ptr} {m : ℕ} {r r' : ℕ → C}
    (hw : w.live.Finite) (h : ComputesIn X n cs w D out m r) (h' : ComputesIn X n cs w D out m r') : ∀ k < m, r k = r' k := by
  intro k hk
  obtain ⟨ok, w', hr, hok, hq⟩ := Act.wp_exists_ok h.1 h.2 hw
  subst hok
  have e1 := (hq.2.1 rfl).1 k hk
  have e2 := ((Act.wp_runs h'.1 hr).2.1 rfl).1 k hk
  exact Option.some.inj (Option.some.inj (e1.symm.trans e2))

theorem real_err (hF : Binary64 F val fin) (i : Target) (thr : Thr) (hn : RealLen n) (hm : 1 / 2 ^ 970 ≤ M) (hM : n * M ≤ 2 ^ 1016)
    (e : Entry) (u U : ℕ → ℂ) :
    letI := i.arith F
    RealRunsTo val fin M (realFFT (Xmm F) thr) (fun e x y => (e, x, y)) n e u U →
      ∀ k < n, ‖U k - e.exact n u k‖ ≤ e.factor n * n * ((errWeight (n / 2) + 84) / 2 ^ 52 * (3 * M)) := by
  letI := i.arith F
  intro h k hk
  have fin2 : ∀ v : ℕ → Xmm F, (twoArrays n v).live.Finite := fun v => by simp [twoArrays]
  rcases h with ⟨he, d, out, hc, hd⟩ | ⟨he, v, out, hc, hu, hv, ho⟩
  · have ok := twoArrays_ok n (doubles d)
    obtain ⟨out', hc', hb⟩ := C47_real_forward hF i thr hn ok.wf ok.arr (twoArrays_alloc _ _) (twoArrays_sep _) hm hM
      (fun t ht => ⟨(hd t ht).1, (hd t ht).2.1⟩) e he
    have := computes_unique (fin2 _) (hc _ _ _ ok.wf ok.arr (twoArrays_alloc _ _) (twoArrays_sep _)) hc' k hk
    have hx : e.exact n u k = e.exact n (Spec.ofReal fun j => val (d j)) k := by
      rw [exact_eq, exact_eq, xdft_sum, xdft_sum]
      exact congrArg _ (sum_congr rfl fun j hj => by rw [← (hd j (mem_range.1 hj)).2.2.1]; rfl)
    rw [hx, ← (hd k hk).2.2.2, this]
    exact le_trans (hb k hk).2 (le_of_eq (by ring))
  · have ok := twoArrays_ok n v
    have hp := hn.pos
    have arr : Arr (twoArrays n v).heap (Ptr.base 1) (n / 2 + 1) v := fun j hj => ok.arr j (by
      have := hn.even; omega)
    obtain ⟨out', hc', hb⟩ := C47_real_inverse hF i thr hn ok.wf arr ok.arr.alloc (twoArrays_alloc _ _) (twoArrays_sep _) hm hM
      (fun t ht => ⟨(hv t ht).1, (hv t ht).2.1⟩) hu (fun t ht => (hv t ht).2.2.symm) e he
    have := computesIn_unique (fin2 _) (hc _ _ _ ok.wf arr ok.arr.alloc (twoArrays_alloc _ _) (twoArrays_sep _)) hc' k hk
    have h0 : out k = out' k := congrFun this 0
    rw [← ho k hk, h0]
    exact le_trans (hb k hk).2 (le_of_eq (by ring))

/-- C77: RealFFT in double precision has the Fourier identities up to rounding, for every even length. -/
theorem C77_real (hF : Binary64 F val fin) (i : Target) (thr : Thr) (hn : RealLen n) (hm : 1 / 2 ^ 970 ≤ M) (hM : n * M ≤ 2 ^ 1016) :
    letI := i.arith F
    NearIdentities n (RealRunsTo val fin M (realFFT (Xmm F) thr) (fun e x y => (e, x, y)) n)
      ((errWeight (n / 2) + 84) / 2 ^ 52 * (3 * M)) := by
  letI := i.arith F
  exact near_of hn.pos (RealLen.le31 hn) (real_err hF i thr hn hm hM)

theorem dct_reverse {r : ℕ → ℝ} (hn : 0 < n) (k : ℕ) : Spec.dct n (fun j => r (n - 1 - j)) k = (-1) ^ k * Spec.dct n r k := by
  have hn : (n : ℝ) ≠ 0 := by exact_mod_cast hn.ne'
  unfold Spec.dct
  rw [← sum_range_reflect, Finset.mul_sum]
  refine sum_congr rfl fun j hj => ?_
  have hj := mem_range.1 hj
  have e1 : n - 1 - (n - 1 - j) = j := by omega
  have e2 : ((n - 1 - j : ℕ) : ℝ) = n - 1 - j := by
    rw [Nat.cast_sub (by omega), Nat.cast_sub (by omega)]; simp
  have e3 : Real.pi * k * (2 * ((n - 1 - j : ℕ) : ℝ) + 1) / (2 * n) = k * Real.pi - Real.pi * k * (2 * j + 1) / (2 * n) := by
    rw [e2]; field_simp; ring
  beta_reduce
  rw [e1, e3, Real.cos_nat_mul_pi_sub]
  ring

/-- C77: the cosine transform in double precision: running the signal backwards changes the sign of the odd bins, up to rounding. -/
theorem C77_dct (hF : Binary64 F val fin) (i : Target) (thr : Thr) (hn : RealLen n) (h30 : n < 2 ^ 30) (hm : 1 / 2 ^ 970 ≤ M)
    (hM : n * M ≤ 2 ^ 1016) (e : DctEntry) (he : e ∈ [DctEntry.fwd, .fwd0, .fwdn]) (d : ℕ → F)
    (hd : ∀ t < n, fin (d t) ∧ |val (d t)| ≤ M) :
    letI := i.arith F
    ∃ U V : ℕ → F,
      (∀ w x, UserArray w x n (doubles d) → Computes (realDCT (Xmm F) thr) n [(e, x)] w x n (doubles U)) ∧
      (∀ w x, UserArray w x n (doubles fun j => d (n - 1 - j)) → Computes (realDCT (Xmm F) thr) n [(e, x)] w x n (doubles V)) ∧
      ∀ k < n, |val (V k) - (-1) ^ k * val (U k)| ≤
        (errWeight (n / 2) + 117) / 2 ^ 52 * (9 * (n * (e.factor n * M))) := by
  letI := i.arith F
  have all : ∀ q : ℕ → F, (∀ t < n, fin (q t) ∧ |val (q t)| ≤ M) → ∃ out : ℕ → F,
      (∀ w x, UserArray w x n (doubles q) → Computes (realDCT (Xmm F) thr) n [(e, x)] w x n (doubles out)) ∧
      ∀ t < n, fin (out t) ∧ |val (out t) - e.exact n (fun j => val (q j)) t| ≤
        (errWeight (n / 2) + 117) / 2 ^ 52 * (9 / 2 * (n * (e.factor n * M))) := by
    intro q hq
    have ok := oneArray_ok n (doubles q)
    obtain ⟨out, hc, hb⟩ := C47_dct hF i thr hn h30 ok.wf ok.arr hm hM hq e
    refine ⟨out, fun w x hx => ?_, hb⟩
    obtain ⟨out', hc', -⟩ := C47_dct hF i thr hn h30 hx.wf hx.arr hm hM hq e
    have full : Computes (realDCT (Xmm F) thr) n [(e, x)] w x n (dctOut (Xmm F) thr e n (doubles q)) :=
      ComputesIn.toComputes (DCT.computes (thr := thr) hx.wf hn h30 hx.arr [e]) (Set.empty_subset _) (fun _ _ => rfl)
    have full1 : Computes (realDCT (Xmm F) thr) n [(e, Ptr.base 1)] (oneArray n (doubles q)) (Ptr.base 1) n
        (dctOut (Xmm F) thr e n (doubles q)) :=
      ComputesIn.toComputes (DCT.computes (thr := thr) ok.wf hn h30 ok.arr [e]) (Set.empty_subset _) (fun _ _ => rfl)
    have hu := computes_unique (by simp [oneArray]) full1 hc
    refine ⟨Act.wp_mono full.1 ?_, full.2⟩
    rintro ok w' ⟨a, b, c⟩
    exact ⟨a, fun hok => ⟨(b hok).1.congr hu, (b hok).2⟩, c⟩
  obtain ⟨U, hU, bU⟩ := all d hd
  obtain ⟨V, hV, bV⟩ := all (fun j => d (n - 1 - j)) fun t ht => hd _ (by omega)
  refine ⟨U, V, hU, hV, fun k hk => ?_⟩
  have key : e.exact n (fun j => val (d (n - 1 - j))) k = (-1) ^ k * e.exact n (fun j => val (d j)) k := by
    have h0 : (n : ℝ) ≠ 0 := by exact_mod_cast hn.pos.ne'
    have key := dct_reverse (r := fun j => val (d j)) hn.pos k
    simp only [List.mem_cons, List.not_mem_nil, or_false] at he
    rcases he with rfl | rfl | rfl <;> simp only [DctEntry.exact, key] <;> ring
  have h1 := (bU k hk).2
  have h2 := (bV k hk).2
  rw [key] at h2
  have h3 : |(-1 : ℝ) ^ k * (val (U k) - e.exact n (fun j => val (d j)) k)| = |val (U k) - e.exact n (fun j => val (d j)) k| := by
    rw [abs_mul, abs_pow, abs_neg, abs_one, one_pow, one_mul]
  calc _ = |(val (V k) - (-1) ^ k * e.exact n (fun j => val (d j)) k) - (-1) ^ k * (val (U k) - e.exact n (fun j => val (d j)) k)| := by
        ring_nf
    _ ≤ _ := abs_sub _ _
    _ ≤ _ := by rw [h3]; linarith

theorem C77_runs_real (i : Target) (thr : Thr) (hn : RealLen n) (d : ℕ → F) (hd : ∀ t < n, fin (d t) ∧ |val (d t)| ≤ M) (e : Entry)
    (he : e ∈ [Entry.fwd, .fwd0, .fwdu, .fwdn]) :
    letI := i.arith F
    ∃ U, RealRunsTo val fin M (realFFT (Xmm F) thr) (fun e x y => (e, x, y)) n e (fun t => (val (d t) : ℂ)) U := by
  letI := i.arith F
  have hi : e.isInv = false := by
    simp only [List.mem_cons, List.not_mem_nil, or_false] at he
    rcases he with rfl | rfl | rfl | rfl <;> rfl
  refine ⟨_, .inl ⟨he, d, rfftOut (Xmm F) thr e n (doubles d), fun w x y wf hx hy hxy => ?_,
    fun t ht => ⟨(hd t ht).1, (hd t ht).2, rfl, rfl⟩⟩⟩
  have a : RealArgs w e n x y (doubles d) := ⟨wf, hn, by rw [rfftNeed, hi]; exact hx, hx.alloc, hy, hxy⟩
  exact ComputesIn.toComputes (RFFT.computes (thr := thr) a) (by rw [rfftDirty, hi]; exact le_refl _) (fun _ _ => rfl)

variable [Libm]

/-- a signal of 2^10 IEEE doubles of magnitude at most 1 and the same signal 3 samples later: bin 5 turns by `2π · 15 / 2^10` -/
example (i : Target) (thr : Thr) (v : ℕ → Xmm Dbl64)
    (hv : ∀ t < 2 ^ 10, cfin Dbl64.Finite (v t) ∧ ‖cval Ieee.val (v t)‖ ≤ 1) :
    letI := i.arith Dbl64
    ∃ U V, RunsTo Ieee.val Dbl64.Finite 1 (complexFFT (Xmm Dbl64) thr) (fun e x => (e, x)) (2 ^ 10) .fwd (fun t => cval Ieee.val (v t)) U ∧
      RunsTo Ieee.val Dbl64.Finite 1 (complexFFT (Xmm Dbl64) thr) (fun e x => (e, x)) (2 ^ 10) .fwd
        (fun t => cval Ieee.val (v ((t + 3) % 2 ^ 10))) V ∧
      ‖V 5 - turn (2 ^ 10) 15 * U 5‖ ≤ 1 / 2 ^ 42 := by
  letI := i.arith Dbl64
  have hn : ValidLen (2 ^ 10) := validLen_of_le (by norm_num) (by norm_num)
  obtain ⟨U, hU⟩ := C77_runs (fin := Dbl64.Finite) i thr hn v hv .fwd
  obtain ⟨V, hV⟩ := C77_runs (fin := Dbl64.Finite) i thr hn (fun t => v ((t + 3) % 2 ^ 10)) (fun t ht => hv _ (by omega)) .fwd
  refine ⟨U, V, hU, hV, ?_⟩
  have h := (C77_complex (M := 1) ieee_binary64 i thr hn (div_le_one_of_le₀ (one_le_pow₀ (by norm_num)) (by positivity)) (by
    rw [mul_one]
    have : (((2 ^ 10 : ℕ) : ℕ) : ℝ) = 2 ^ 10 := by norm_num
    rw [this]
    exact pow_le_pow_right₀ (by norm_num) (by norm_num))).shift .fwd _ U _ V 0 3 hU hV (fun j _ => by simp) 5 (by norm_num)
  have e1 : -Entry.sign .fwd * ((3 : ℕ) * (5 : ℕ)) = 15 := by norm_num [Entry.sign]
  rw [e1] at h
  refine le_trans h ?_
  rw [C46_weight.1 10]
  norm_num [Entry.factor]

end OTFFT.Props
