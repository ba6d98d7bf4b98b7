/-
C22, C23, C24, C38: Bluestein's algorithm.
-/
import Verif.Proof.BlueDFT
import Verif.Props.Real

namespace OTFFT

variable {F C : Type} [DArith F] [CArith F C] [Inhabited C]

/-- any sequence of transforms of one array, any arithmetic -/
theorem Bluestein.computes {thr : Thr} {w : World C} {n : Nat} {x : Ptr} {v : Nat → C} (wf : w.WF) (hn : 1 ≤ n) (hn29 : n ≤ 2 ^ 29)
    (hx : Arr w.heap x n v) (es : List Entry) :
    ComputesIn (bluesteinFFT C thr) n (es.map fun e => (e, x)) w ∅ x n (es.foldl (fun u e => blueOutF C thr e n u) v) := by
  have hl := wf.buf_live (by omega : 0 < n) hx.alloc
  refine (bluesteinSpec C thr).computesIn
    (fun i h => Arr h x n ((es.take i).foldl (fun u e => blueOutF C thr e n u) v) ∧
      ∀ l : Loc, l.1 ∈ w.live → l ∉ Region x n → h l = w.heap l)
    (by show _ ≤ _; omega) wf ⟨by simpa using hx, fun _ _ _ => rfl⟩ ?_ ?_ ?_ (Bluestein.lifetime_noFail _ (by omega) _ (lenNat_calls _))
  · rintro i h h' s ⟨a, b⟩
    exact ⟨s.arr hl a, fun l h1 h2 => (s l h1).trans (b l h1 h2)⟩
  · rintro i c hc o w' ow hr ⟨a, b⟩
    have hc' : (es.map fun e => ((e, x) : Entry × Ptr))[i]? = some c := hc
    rw [List.getElem?_map] at hc'
    obtain ⟨e, he, rfl⟩ := Option.map_eq_some_iff.1 hc'
    refine Act.wp_mono (Bluestein.call_spec hn hn29 ow (hr hn) a (fun h => ow.disj _ h hl)) ?_
    rintro _ w2 ⟨h1, h2, h3, h4, _⟩
    refine ⟨h1, fun _ => h4, ?_, fun l hl1 hl2 => (h3 l (fun h => ow.disj _ h hl1) hl2).trans (b l hl1 hl2)⟩
    rw [List.take_succ, he, Option.toList, List.foldl_append]
    exact h2
  · rintro h ⟨a, b⟩
    have hlen : (es.map fun e => ((e, x) : Entry × Ptr)).length = es.length := List.length_map _
    have a : Arr h x n ((es.take ((es.map fun e => ((e, x) : Entry × Ptr)).length)).foldl (fun u e => blueOutF C thr e n u) v) := a
    rw [hlen, List.take_length] at a
    exact ⟨a, fun l h1 h2 => b l h1 fun h => h2 (Or.inl h)⟩

end OTFFT

namespace OTFFT.Props
open OTFFT

variable {n : ℕ} {w : World ℂ} {x : Ptr} {v : ℕ → ℂ}

theorem blue_one (thr : Thr) (h1 : 1 ≤ n) (h29 : n ≤ 2 ^ 29) (hx : UserArray w x n v) (e : Entry) :
    Computes (bluesteinFFT ℂ thr) n [(e, x)] w x n (fun k => scC n e.mode * xdft e.isInv n v k) :=
  ComputesIn.toComputes (Bluestein.computes hx.wf h1 h29 hx.arr [e]) (Set.empty_subset _)
    fun _ ht => blueOutF_C thr e h1 h29 v ht

/-- C22: the forward transforms of Bluestein's algorithm, for every length (prime, odd, even) from 1 to 2^29: `fwd0` is the DFT,
`fwd` and `fwdn` the DFT divided by `n`, `fwdu` the DFT divided by `√n`. -/
theorem C22_forward (thr : Thr) (h1 : 1 ≤ n) (h29 : n ≤ 2 ^ 29) (hx : UserArray w x n v) :
    Computes (bluesteinFFT ℂ thr) n [(.fwd0, x)] w x n (Spec.dft n v) ∧
    Computes (bluesteinFFT ℂ thr) n [(.fwd, x)] w x n (fun k => 1 / (n : ℂ) * Spec.dft n v k) ∧
    Computes (bluesteinFFT ℂ thr) n [(.fwdn, x)] w x n (fun k => 1 / (n : ℂ) * Spec.dft n v k) ∧
    Computes (bluesteinFFT ℂ thr) n [(.fwdu, x)] w x n (fun k => ((1 / Real.sqrt n : ℝ) : ℂ) * Spec.dft n v k) := by
  rw [Spec.dft_eq]
  refine ⟨?_, ?_, ?_, blue_one thr h1 h29 hx .fwdu⟩
  · simpa [scC, Entry.mode, Entry.isInv] using blue_one thr h1 h29 hx .fwd0
  · simpa [scC, Entry.mode, Entry.isInv] using blue_one thr h1 h29 hx .fwd
  · simpa [scC, Entry.mode, Entry.isInv] using blue_one thr h1 h29 hx .fwdn

/-- C22: the inverse transforms. -/
theorem C22_inverse (thr : Thr) (h1 : 1 ≤ n) (h29 : n ≤ 2 ^ 29) (hx : UserArray w x n v) :
    Computes (bluesteinFFT ℂ thr) n [(.inv, x)] w x n (Spec.idft n v) ∧
    Computes (bluesteinFFT ℂ thr) n [(.inv0, x)] w x n (Spec.idft n v) ∧
    Computes (bluesteinFFT ℂ thr) n [(.invn, x)] w x n (fun k => 1 / (n : ℂ) * Spec.idft n v k) ∧
    Computes (bluesteinFFT ℂ thr) n [(.invu, x)] w x n (fun k => ((1 / Real.sqrt n : ℝ) : ℂ) * Spec.idft n v k) := by
  rw [Spec.idft_eq]
  refine ⟨?_, ?_, ?_, blue_one thr h1 h29 hx .invu⟩
  · simpa [scC, Entry.mode, Entry.isInv] using blue_one thr h1 h29 hx .inv
  · simpa [scC, Entry.mode, Entry.isInv] using blue_one thr h1 h29 hx .inv0
  · simpa [scC, Entry.mode, Entry.isInv] using blue_one thr h1 h29 hx .invn

/-- C23: a transform followed by the matching inverse one, in either order, restores the array. -/
theorem C23_round_trip (thr : Thr) (h1 : 1 ≤ n) (h29 : n ≤ 2 ^ 29) (hx : UserArray w x n v) (f g : Entry)
    (hfg : (f, g) ∈ [(Entry.fwd, Entry.inv), (.fwd, .inv0), (.fwdn, .inv), (.fwdn, .inv0), (.fwd0, .invn), (.fwdu, .invu)]) :
    Computes (bluesteinFFT ℂ thr) n [(f, x), (g, x)] w x n v ∧ Computes (bluesteinFFT ℂ thr) n [(g, x), (f, x)] w x n v := by
  obtain ⟨hf, hg, hs⟩ : f.isInv = false ∧ g.isInv = true ∧ scC n f.mode * scC n g.mode * n = 1 := by
    have h0 : (n : ℂ) ≠ 0 := by exact_mod_cast (by omega : n ≠ 0)
    have hpos : (0 : ℝ) < n := by exact_mod_cast h1
    have hu : scC n .scale_unitary * scC n .scale_unitary * n = 1 := by
      have : (1 / Real.sqrt n) * (1 / Real.sqrt n) * n = 1 := by
        rw [div_mul_div_comm, Real.mul_self_sqrt hpos.le]; field_simp
      simp only [scC]
      exact_mod_cast this
    simp only [List.mem_cons, Prod.mk.injEq, List.not_mem_nil, or_false] at hfg
    rcases hfg with ⟨rfl, rfl⟩ | ⟨rfl, rfl⟩ | ⟨rfl, rfl⟩ | ⟨rfl, rfl⟩ | ⟨rfl, rfl⟩ | ⟨rfl, rfl⟩
    all_goals first | exact ⟨rfl, rfl, hu⟩ | exact ⟨rfl, rfl, by simp [scC, Entry.mode, h0]⟩
  have key : ∀ a b : Entry, b.isInv = !a.isInv → scC n a.mode * scC n b.mode * n = 1 → ∀ t < n,
      blueOutF ℂ thr b n (blueOutF ℂ thr a n v) t = v t := by
    intro a b hab hs t ht
    rw [blueOutF_C thr b h1 h29 _ ht, xdft_congr _ (fun t ht => blueOutF_C thr a h1 h29 v ht), xdft_smul, hab, xdft_inv _ _ ht]
    linear_combination (v t) * hs
  exact ⟨ComputesIn.toComputes (Bluestein.computes hx.wf h1 h29 hx.arr [f, g]) (Set.empty_subset _)
      (key f g (by rw [hf, hg]; rfl) hs),
    ComputesIn.toComputes (Bluestein.computes hx.wf h1 h29 hx.arr [g, f]) (Set.empty_subset _)
      (key g f (by rw [hf, hg]; rfl) (by rw [mul_comm (scC n g.mode)]; exact hs))⟩

/-- C23: wherever both are defined, Bluestein and ComplexFFT compute the same function, for every entry point and any two
configurations of thresholds. -/
theorem C23_agrees_with_fft (thr thr' : Thr) (hv : ValidLen n) (h29 : n ≤ 2 ^ 29) (v : ℕ → ℂ) (e : Entry) : ∃ r : ℕ → ℂ,
    (∀ w x, UserArray w x n v → Computes (bluesteinFFT ℂ thr) n [(e, x)] w x n r) ∧
    (∀ w x, UserArray w x n v → Computes (complexFFT ℂ thr') n [(e, x)] w x n r) := by
  have h2 := hv.two
  refine ⟨_, fun w x hx => blue_one thr (by omega) h29 hx e, fun w x hx => computes_out hv hx [e] _ fun t ht => ?_⟩
  exact fftOut_C hv.two v ht

/-- C24: `setup` does not overflow for 1 ≤ n ≤ 2^29 (that nothing undefined happens is part of `wp`), and the padded length is the
least power of two that is at least `2n-1`; it is below `4n` and at most `2^30`. So the mirrored entries `b[L-p]` are distinct from
the entries `b[q]`, and chirp indices lie inside the table of `2n+1` entries and are computed without overflow of `int64_t`. -/
theorem C24_padded_length (thr : Thr) {F C : Type} [DArith F] [CArith F C] [Inhabited C] (h1 : 1 ≤ n) (h29 : n ≤ 2 ^ 29) (w : World C) (hw : w.WF) :
    (Bluestein.create C thr n).wp (fun r _ => ∀ o, r = some o →
      (∃ k, o.L = 2 ^ k) ∧ 2 * n - 1 ≤ o.L ∧ (∀ j, 2 * n - 1 ≤ 2 ^ j → o.L ≤ 2 ^ j) ∧ o.L < 4 * n ∧ o.L ≤ 2 ^ 30 ∧
      (∀ p q, 1 ≤ p → p < n → q < n → o.L - p ≠ q) ∧
      (∀ p, p < n → p * p < 2 ^ 63 ∧ p * p % (2 * n) < 2 * n + 1 ∧ 2 * n - p * p % (2 * n) < 2 * n + 1)) w := by
  refine Act.wp_mono (Bluestein.create_spec (rest := []) (n := n) (by show _ ≤ _; omega) (Owned.start hw)) ?_
  rintro r w' ⟨_, h⟩ o rfl
  obtain ⟨k, -, hk, hL, hmin⟩ := blueLoop_spec _ _ _ (h.2 h1).pad
  have hmin' : ∀ j, 2 * n - 1 ≤ 2 ^ j → o.L ≤ 2 ^ j := by
    intro j hj
    rw [hk]
    by_contra hlt
    have hjk : j < k := by
      by_contra hjk
      exact hlt (Nat.pow_le_pow_right (by omega) (by omega))
    have := hmin j (Nat.zero_le _) hjk
    omega
  refine ⟨⟨k, hk⟩, hL, hmin', ?_, hmin' 30 (by omega), fun p q _ _ _ => by omega, fun p hp => ⟨?_, ?_, by omega⟩⟩
  · rcases Nat.eq_zero_or_pos k with rfl | h0
    · rw [hk]; omega
    · have := hmin (k - 1) (Nat.zero_le _) (by omega)
      have e : 2 ^ k = 2 * 2 ^ (k - 1) := by rw [← pow_succ']; congr 1; omega
      omega
  · calc p * p ≤ 2 ^ 31 * 2 ^ 31 := Nat.mul_le_mul (by omega) (by omega)
      _ < 2 ^ 63 := by norm_num
  · have := Nat.mod_lt (p * p) (show 0 < 2 * n by omega)
    omega

/-- C24: the bound is sharp: for every larger length the constructor runs into signed overflow, whatever the heap is, before it
has allocated anything, and it has no other execution: none ends, neither with an object nor with an exception. -/
theorem C24_overflow_above (thr : Thr) {F C : Type} [DArith F] [CArith F C] (hn : 2 ^ 29 < n) (w : World C) :
    (Bluestein.create C thr n).MayUB w ∧ ∀ r w', ¬ (Bluestein.create C thr n).Runs w r w' := by
  have key : Bluestein.empty.setup C thr n = .run [[.ub]] (.ret (Bluestein.empty, false)) := by
    unfold Bluestein.setup
    rw [if_neg (by omega)]
    unfold Bluestein.setupPos
    rw [Int.toNat_natCast]
    split
    · rfl
    · rw [(blueLoop_none_iff (2 * n) 0 (by omega)).2 (by omega)]
  unfold Bluestein.create
  rw [key]
  refine ⟨Act.MayUB.code ?_, fun r w' h => ?_⟩
  · exact ⟨⟨[.ub], [], w.heap⟩, .step (.barrier (by simp)) (.refl _), Or.inl ⟨.ub, by simp, .ub⟩⟩
  · cases h with
    | run hr hf _ =>
      have stuck : ∀ e d : Config C, Reach e d → (e = ⟨[], [[.ub]], w.heap⟩ ∨ e = ⟨[.ub], [], w.heap⟩) → ¬ d.Final := by
        intro e d hr
        induction hr with
        | refl c =>
          rintro (rfl | rfl) hf
          · exact absurd hf.2 (by simp)
          · have := hf.1 .ub (by simp)
            exact absurd this (by simp)
        | step s _ ih =>
          rintro (rfl | rfl)
          · refine ih (Or.inr ?_)
            cases s with
            | task i hi _ => simp at hi
            | barrier _ => rfl
          · cases s with
            | task i hi ht =>
              rcases i with _ | i
              · simp only [List.getElem?_cons_zero, Option.some.injEq] at hi
                subst hi
                cases ht
              · simp at hi
      exact stuck _ _ hr (Or.inl rfl) hf

/-- C38: `setup` with an argument below 1 does nothing: the rest of any program behaves as if it were not there, whatever has
happened to the object before. -/
theorem C38_setup_zero (thr : Thr) {F C : Type} [DArith F] [CArith F C] (o : Bluestein) (ops : List (Op C (Entry × Ptr))) (ok : Bool)
    (m : ℤ) (hm : m < 1) :
    (bluesteinFFT C thr).session o ok (.setup m :: ops) = (bluesteinFFT C thr).session o true ops := by
  have e : (bluesteinFFT C thr).setup o m = .ret (o, false) := by
    show Bluestein.setup C thr o m = _
    unfold Bluestein.setup
    rw [if_pos hm]; rfl
  simp only [Cls.session, e]
  rfl

/-- C38: in a program in which such a `setup` is inserted after construction and any calls and stores, every behaviour is the same. -/
theorem C38_setup_zero_lifetime (thr : Thr) {F C : Type} [DArith F] [CArith F C] (n : ℤ) (pre post : List (Op C (Entry × Ptr)))
    (hpre : ∀ k, Op.setup k ∉ pre) (m : ℤ) (hm : m < 1) :
    (bluesteinFFT C thr).lifetime n (pre ++ .setup m :: post) = (bluesteinFFT C thr).lifetime n (pre ++ post) := by
  have key : ∀ (pre : List (Op C (Entry × Ptr))), (∀ k, Op.setup k ∉ pre) → ∀ o : Bluestein,
      (bluesteinFFT C thr).session o true (pre ++ .setup m :: post) = (bluesteinFFT C thr).session o true (pre ++ post) := by
    intro pre
    induction pre with
    | nil => intro _ o; exact C38_setup_zero thr o post true m hm
    | cons op pre ih =>
      intro h o
      have ih := ih (fun k hk => h k (.tail _ hk)) o
      cases op with
      | setup k => exact absurd (.head _) (h k)
      | call c => simp only [List.cons_append, Cls.session, if_true, ih]
      | store p v => simp only [List.cons_append, Cls.session, ih]
  unfold Cls.lifetime Cls.use
  congr 2
  funext r
  cases r with
  | none => rfl
  | some o => simp only [key pre hpre o]

/-! ### the hypotheses can be met -/

example (thr : Thr) (v : ℕ → ℂ) : ∀ n ∈ ([1, 2, 7, 97, 1000003, 2 * 46349, 2 ^ 29] : List ℕ), ∃ w',
    ((bluesteinFFT ℂ thr).lifetime n [.call (.fwd0, Ptr.base 1)]).Runs (oneArray n v) true w' ∧
    Arr w'.heap (Ptr.base 1) n (Spec.dft n v) := by
  intro n hn
  have hl : 1 ≤ n ∧ n ≤ 2 ^ 29 := by
    simp only [List.mem_cons, List.not_mem_nil, or_false] at hn
    omega
  obtain ⟨h1, h2⟩ := (C22_forward thr hl.1 hl.2 (oneArray_ok n v)).1
  obtain ⟨a, w', hr, ha, hq⟩ := Act.wp_exists_ok h1 h2 (by simp [oneArray])
  subst ha
  exact ⟨w', hr, (hq.2.1 rfl).1⟩

example (thr : Thr) (v : ℕ → ℂ) : ∃ w',
    ((bluesteinFFT ℂ thr).lifetime 101 [.call (.fwdu, Ptr.base 1), .call (.invu, Ptr.base 1)]).Runs
      (oneArray 101 v) true w' ∧ Arr w'.heap (Ptr.base 1) 101 v := by
  obtain ⟨h1, h2⟩ := (C23_round_trip thr (n := 101) (by omega) (by omega) (oneArray_ok 101 v) .fwdu .invu (by simp)).1
  obtain ⟨b, w', hr, hb, hq⟩ := Act.wp_exists_ok h1 h2 (by simp [oneArray])
  subst hb
  exact ⟨w', hr, (hq.2.1 rfl).1⟩

example (thr thr' : Thr) (v : ℕ → ℂ) (e : Entry) : ∃ r : ℕ → ℂ,
    Computes (bluesteinFFT ℂ thr) 60 [(e, Ptr.base 1)] (oneArray 60 v) (Ptr.base 1) 60 r ∧
    Computes (complexFFT ℂ thr') 60 [(e, Ptr.base 1)] (oneArray 60 v) (Ptr.base 1) 60 r := by
  obtain ⟨r, h1, h2⟩ := C23_agrees_with_fft thr thr' (validLen_of_le (n := 60) (by omega) (by omega)) (by omega) v e
  exact ⟨r, h1 _ _ (oneArray_ok 60 v), h2 _ _ (oneArray_ok 60 v)⟩

end OTFFT.Props
