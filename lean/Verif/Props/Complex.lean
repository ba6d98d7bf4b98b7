/-
C01–C06, C08, C09, C13, C25, C39: what the complex transforms compute.
-/
import Verif.Proof.AlgoOnce
import Verif.Proof.DFTFacts
import Verif.Spec.Api

namespace OTFFT.Props
open OTFFT

variable {thr : Thr} {n : ℕ} {w : World ℂ} {x : Ptr} {v : ℕ → ℂ}

/-- memory with one array of length `n` -/
def oneArray {C : Type} (n : ℕ) (v : ℕ → C) : World C where
  heap := fun l => if l.1 = 1 then (if l.2 < n then some (some (v l.2)) else none) else none
  live := {1}

theorem oneArray_ok {C : Type} (n : ℕ) (v : ℕ → C) : UserArray (oneArray n v) (Ptr.base 1) n v where
  wf := ⟨by simp [oneArray], fun l hl => by
    simp only [oneArray, Set.mem_singleton_iff] at hl ⊢; rw [if_neg hl]⟩
  arr := fun i hi => by simp [oneArray, Ptr.base, Ptr.loc, hi]

/-- the hypotheses on lengths are satisfiable: powers of two, composite, odd and prime lengths -/
theorem validLen_of_le {n : ℕ} (h2 : 2 ≤ n) (h : n ≤ 46341) : ValidLen n :=
  ⟨h2, fun _ _ hd => (Nat.le_of_dvd (by omega) hd).trans h, by omega⟩

theorem validLen_pow (k : ℕ) (hk : 1 ≤ k) (hk' : k ≤ 30) : ValidLen (2 ^ k) :=
  ⟨by calc 2 = 2 ^ 1 := rfl
      _ ≤ 2 ^ k := Nat.pow_le_pow_right (by omega) hk,
   fun q hq hd => by
    have := (Nat.prime_dvd_prime_iff_eq hq Nat.prime_two).1 (hq.dvd_of_dvd_pow hd); omega,
   Nat.pow_lt_pow_right (by omega) (by omega)⟩

theorem computes_out (hn : ValidLen n) (hx : UserArray w x n v) (es : List Entry) (r : ℕ → ℂ)
    (hr : ∀ t < n, fftOuts ℂ thr n es v t = r t) :
    Computes (complexFFT ℂ thr) n (es.map fun e => (e, x)) w x n r := by
  refine ⟨Act.wp_mono (FFT.calls hn hx) ?_, FFT.lifetime_noFail _ (by omega) _ (lenNat_calls _)⟩
  rintro ok w' ⟨a, b, c⟩
  exact ⟨a, fun h => ⟨(b h).1.congr hr, (b h).2⟩, c⟩

/-- C01: `fwd0` is the DFT. -/
theorem C01_fwd0 (thr : Thr) (hn : ValidLen n) (hx : UserArray w x n v) :
    Computes (complexFFT ℂ thr) n [(.fwd0, x)] w x n (Spec.dft n v) := by
  refine computes_out hn hx [.fwd0] _ fun t ht => ?_
  show fftOut ℂ thr false .scale_1 n v t = _
  rw [fftOut_C hn.two v ht]
  exact one_mul _

/-- C02: `fwd` is the DFT divided by `n`. -/
theorem C02_fwd (thr : Thr) (hn : ValidLen n) (hx : UserArray w x n v) :
    Computes (complexFFT ℂ thr) n [(.fwd, x)] w x n (fun k => 1 / (n : ℂ) * Spec.dft n v k) := by
  refine computes_out hn hx [.fwd] _ fun t ht => ?_
  show fftOut ℂ thr false .scale_length n v t = _
  rw [fftOut_C hn.two v ht]
  simp [scC, Spec.dft_eq]

/-- C02: `fwdn` is the DFT divided by `n`. -/
theorem C02_fwdn (thr : Thr) (hn : ValidLen n) (hx : UserArray w x n v) :
    Computes (complexFFT ℂ thr) n [(.fwdn, x)] w x n (fun k => 1 / (n : ℂ) * Spec.dft n v k) := by
  refine computes_out hn hx [.fwdn] _ fun t ht => ?_
  show fftOut ℂ thr false .scale_length n v t = _
  rw [fftOut_C hn.two v ht]
  simp [scC, Spec.dft_eq]

/-- C03: `fwdu` is the DFT divided by `√n`. -/
theorem C03_fwdu (thr : Thr) (hn : ValidLen n) (hx : UserArray w x n v) :
    Computes (complexFFT ℂ thr) n [(.fwdu, x)] w x n
      (fun k => ((1 / Real.sqrt n : ℝ) : ℂ) * Spec.dft n v k) := by
  refine computes_out hn hx [.fwdu] _ fun t ht => ?_
  show fftOut ℂ thr false .scale_unitary n v t = _
  rw [fftOut_C hn.two v ht]
  rfl

/-- C04: `inv` is the unnormalised inverse DFT. -/
theorem C04_inv (thr : Thr) (hn : ValidLen n) (hx : UserArray w x n v) :
    Computes (complexFFT ℂ thr) n [(.inv, x)] w x n (Spec.idft n v) := by
  refine computes_out hn hx [.inv] _ fun t ht => ?_
  show fftOut ℂ thr true .scale_1 n v t = _
  rw [fftOut_C hn.two v ht]
  exact one_mul _

/-- C04: `inv0` is the unnormalised inverse DFT. -/
theorem C04_inv0 (thr : Thr) (hn : ValidLen n) (hx : UserArray w x n v) :
    Computes (complexFFT ℂ thr) n [(.inv0, x)] w x n (Spec.idft n v) := by
  refine computes_out hn hx [.inv0] _ fun t ht => ?_
  show fftOut ℂ thr true .scale_1 n v t = _
  rw [fftOut_C hn.two v ht]
  exact one_mul _

/-- C05: `invu` is the inverse DFT divided by `√n`. -/
theorem C05_invu (thr : Thr) (hn : ValidLen n) (hx : UserArray w x n v) :
    Computes (complexFFT ℂ thr) n [(.invu, x)] w x n
      (fun k => ((1 / Real.sqrt n : ℝ) : ℂ) * Spec.idft n v k) := by
  refine computes_out hn hx [.invu] _ fun t ht => ?_
  show fftOut ℂ thr true .scale_unitary n v t = _
  rw [fftOut_C hn.two v ht]
  rfl

/-- C05: `invn` is the inverse DFT divided by `n`. -/
theorem C05_invn (thr : Thr) (hn : ValidLen n) (hx : UserArray w x n v) :
    Computes (complexFFT ℂ thr) n [(.invn, x)] w x n (fun k => 1 / (n : ℂ) * Spec.idft n v k) := by
  refine computes_out hn hx [.invn] _ fun t ht => ?_
  show fftOut ℂ thr true .scale_length n v t = _
  rw [fftOut_C hn.two v ht]
  simp [scC, Spec.idft_eq]

/-- Hypotheses of C01–C05 are met, and an execution in which nothing throws exists: length 15 (odd,
mixed radix), 1024 (radix 4), 2^18 (six-step). -/
example (thr : Thr) (v : ℕ → ℂ) : ∀ n ∈ ([2, 15, 1024, 2 ^ 18, 46341] : List ℕ), ∃ w',
    ((complexFFT ℂ thr).lifetime n [.call (.fwd0, Ptr.base 1)]).Runs (oneArray n v) true w' ∧
    Arr w'.heap (Ptr.base 1) n (Spec.dft n v) := by
  intro n hn
  have hv : ValidLen n := by
    simp only [List.mem_cons, List.not_mem_nil, or_false] at hn
    rcases hn with rfl | rfl | rfl | rfl | rfl
    · exact validLen_of_le (by omega) (by omega)
    · exact validLen_of_le (by omega) (by omega)
    · exact validLen_of_le (by omega) (by omega)
    · exact validLen_pow 18 (by omega) (by omega)
    · exact validLen_of_le (by omega) (by omega)
  obtain ⟨h1, h2⟩ := C01_fwd0 thr hv (oneArray_ok n v)
  obtain ⟨a, w', hr, ha, hq⟩ := Act.wp_exists_ok h1 h2 (Set.finite_singleton 1)
  subst ha
  exact ⟨w', hr, (hq.2.1 rfl).1⟩

/-! ### C06: round trips -/

theorem fftOut_twice (hn : 2 ≤ n) (e1 e2 : Entry) (hd : e2.isInv = !e1.isInv)
    (hs : scC n e1.mode * scC n e2.mode * n = 1) {t : ℕ} (ht : t < n) :
    fftOuts ℂ thr n [e1, e2] v t = v t := by
  show fftOut ℂ thr e2.isInv e2.mode n (fftOut ℂ thr e1.isInv e1.mode n v) t = v t
  rw [fftOut_C hn _ ht, xdft_congr _ (v := fun t => scC n e1.mode * xdft e1.isInv n v t)
    (fun t ht => fftOut_C hn v ht), xdft_smul, hd, xdft_inv _ _ ht]
  linear_combination (v t) * hs

theorem scC_len (hn : 2 ≤ n) : scC n .scale_length * scC n .scale_1 * n = 1 := by
  have : (n : ℂ) ≠ 0 := by exact_mod_cast (by omega : n ≠ 0)
  simp [scC, this]

theorem scC_len' (hn : 2 ≤ n) : scC n .scale_1 * scC n .scale_length * n = 1 := by
  rw [mul_comm (scC n .scale_1)]; exact scC_len hn

theorem scC_unitary (hn : 2 ≤ n) : scC n .scale_unitary * scC n .scale_unitary * n = 1 := by
  have h : (0 : ℝ) < n := by exact_mod_cast (by omega : 0 < n)
  have : (1 / Real.sqrt n) * (1 / Real.sqrt n) * n = 1 := by
    rw [div_mul_div_comm, Real.mul_self_sqrt h.le]; field_simp
  simp only [scC]
  exact_mod_cast this

/-- C06: a forward transform followed by the matching inverse restores the array: `fwd;inv`,
`fwd0;invn`, `fwdu;invu` and the variants with `fwdn`/`inv0`. -/
theorem C06_forward_inverse (thr : Thr) (hn : ValidLen n) (hx : UserArray w x n v) (f g : Entry)
    (hfg : (f, g) ∈ [(Entry.fwd, Entry.inv), (.fwd, .inv0), (.fwdn, .inv), (.fwdn, .inv0),
      (.fwd0, .invn), (.fwdu, .invu)]) :
    Computes (complexFFT ℂ thr) n [(f, x), (g, x)] w x n v := by
  have h2 := hn.two
  simp only [List.mem_cons, Prod.mk.injEq, List.not_mem_nil, or_false] at hfg
  have key : g.isInv = (!f.isInv) ∧ scC n f.mode * scC n g.mode * n = 1 := by
    rcases hfg with ⟨rfl, rfl⟩ | ⟨rfl, rfl⟩ | ⟨rfl, rfl⟩ | ⟨rfl, rfl⟩ | ⟨rfl, rfl⟩ | ⟨rfl, rfl⟩
    · exact ⟨rfl, scC_len h2⟩
    · exact ⟨rfl, scC_len h2⟩
    · exact ⟨rfl, scC_len h2⟩
    · exact ⟨rfl, scC_len h2⟩
    · exact ⟨rfl, scC_len' h2⟩
    · exact ⟨rfl, scC_unitary h2⟩
  exact computes_out hn hx [f, g] _ fun t ht => fftOut_twice h2 f g key.1 key.2 ht

/-- C06: and the same pairs in the other order. -/
theorem C06_inverse_forward (thr : Thr) (hn : ValidLen n) (hx : UserArray w x n v) (f g : Entry)
    (hfg : (f, g) ∈ [(Entry.fwd, Entry.inv), (.fwd, .inv0), (.fwdn, .inv), (.fwdn, .inv0),
      (.fwd0, .invn), (.fwdu, .invu)]) :
    Computes (complexFFT ℂ thr) n [(g, x), (f, x)] w x n v := by
  have h2 := hn.two
  simp only [List.mem_cons, Prod.mk.injEq, List.not_mem_nil, or_false] at hfg
  have key : f.isInv = (!g.isInv) ∧ scC n g.mode * scC n f.mode * n = 1 := by
    rcases hfg with ⟨rfl, rfl⟩ | ⟨rfl, rfl⟩ | ⟨rfl, rfl⟩ | ⟨rfl, rfl⟩ | ⟨rfl, rfl⟩ | ⟨rfl, rfl⟩
    · exact ⟨rfl, scC_len' h2⟩
    · exact ⟨rfl, scC_len' h2⟩
    · exact ⟨rfl, scC_len' h2⟩
    · exact ⟨rfl, scC_len' h2⟩
    · exact ⟨rfl, scC_len h2⟩
    · exact ⟨rfl, scC_unitary h2⟩
  exact computes_out hn hx [g, f] _ fun t ht => fftOut_twice h2 g f key.1 key.2 ht

example (thr : Thr) (v : ℕ → ℂ) : ∃ w',
    ((complexFFT ℂ thr).lifetime 360 [.call (.fwdu, Ptr.base 1), .call (.invu, Ptr.base 1)]).Runs
      (oneArray 360 v) true w' ∧ Arr w'.heap (Ptr.base 1) 360 v := by
  obtain ⟨h1, h2⟩ := C06_forward_inverse thr (validLen_of_le (n := 360) (by omega) (by omega))
    (oneArray_ok 360 v) .fwdu .invu (by simp)
  obtain ⟨a, w', hr, ha, hq⟩ := Act.wp_exists_ok h1 h2 (Set.finite_singleton 1)
  subst ha
  exact ⟨w', hr, (hq.2.1 rfl).1⟩

/-! ### C08: linearity -/

/-- C08: every transform is linear: the result on `a·u + b·v` is `a` times the result on `u` plus
`b` times the result on `v` (each transform in its own memory). -/
theorem C08_linear (thr : Thr) (hn : ValidLen n) (e : Entry) (a b : ℂ) (u v : ℕ → ℂ) :
    ∃ U V : ℕ → ℂ,
      (∀ w x, UserArray w x n u → Computes (complexFFT ℂ thr) n [(e, x)] w x n U) ∧
      (∀ w x, UserArray w x n v → Computes (complexFFT ℂ thr) n [(e, x)] w x n V) ∧
      (∀ w x, UserArray w x n (fun j => a * u j + b * v j) →
        Computes (complexFFT ℂ thr) n [(e, x)] w x n (fun k => a * U k + b * V k)) := by
  refine ⟨fftOut ℂ thr e.isInv e.mode n u, fftOut ℂ thr e.isInv e.mode n v, ?_, ?_, ?_⟩
  · intro w x hx; exact computes_out hn hx [e] _ fun t ht => rfl
  · intro w x hx; exact computes_out hn hx [e] _ fun t ht => rfl
  · intro w x hx
    refine computes_out hn hx [e] _ fun t ht => ?_
    show fftOut ℂ thr e.isInv e.mode n _ t = _
    rw [fftOut_C hn.two _ ht, fftOut_C hn.two _ ht, fftOut_C hn.two _ ht, xdft_add]
    ring

example (thr : Thr) (e : Entry) (u v : ℕ → ℂ) :
    ∃ U V : ℕ → ℂ, Computes (complexFFT ℂ thr) 12 [(e, Ptr.base 1)] (oneArray 12 (fun j => 2 * u j + 3 * v j))
      (Ptr.base 1) 12 (fun k => 2 * U k + 3 * V k) := by
  obtain ⟨U, V, _, _, h⟩ := C08_linear thr (validLen_of_le (n := 12) (by omega) (by omega)) e 2 3 u v
  exact ⟨U, V, h _ _ (oneArray_ok _ _)⟩

/-! ### C09: Parseval -/

theorem energy_scale (n : ℕ) (c : ℂ) (r : ℕ → ℂ) :
    Spec.energy n (fun k => c * r k) = Complex.normSq c * Spec.energy n r := by
  unfold Spec.energy
  rw [Finset.mul_sum]
  exact Finset.sum_congr rfl fun j _ => by rw [map_mul]

/-- C09: the unitary transforms preserve the energy; the unnormalised ones multiply it by `n`; the
ones divided by `n` divide it by `n`. -/
theorem C09_parseval (thr : Thr) (hn : ValidLen n) (hx : UserArray w x n v) (e : Entry) :
    ∃ r, Computes (complexFFT ℂ thr) n [(e, x)] w x n r ∧
      (e ∈ [Entry.fwdu, .invu] → Spec.energy n r = Spec.energy n v) ∧
      (e ∈ [Entry.fwd0, .inv, .inv0] → Spec.energy n r = n * Spec.energy n v) ∧
      (e ∈ [Entry.fwd, .fwdn, .invn] → n * Spec.energy n r = Spec.energy n v) := by
  have h2 := hn.two
  have hpos : (0 : ℝ) < n := by exact_mod_cast (by omega : 0 < n)
  refine ⟨fun k => scC n e.mode * xdft e.isInv n v k, computes_out hn hx [e] _ fun t ht => ?_, ?_, ?_, ?_⟩
  · exact fftOut_C h2 v ht
  · intro he
    rw [energy_scale, xdft_parseval]
    have : e.mode = .scale_unitary := by
      simp only [List.mem_cons, List.not_mem_nil, or_false] at he
      rcases he with rfl | rfl <;> rfl
    rw [this]
    simp only [scC, Complex.normSq_ofReal, div_mul_div_comm, Real.mul_self_sqrt hpos.le]
    field_simp
  · intro he
    rw [energy_scale, xdft_parseval]
    have : e.mode = .scale_1 := by
      simp only [List.mem_cons, List.not_mem_nil, or_false] at he
      rcases he with rfl | rfl | rfl <;> rfl
    rw [this]
    simp [scC]
  · intro he
    rw [energy_scale, xdft_parseval]
    have : e.mode = .scale_length := by
      simp only [List.mem_cons, List.not_mem_nil, or_false] at he
      rcases he with rfl | rfl | rfl <;> rfl
    rw [this]
    simp only [scC, Complex.normSq_ofReal]
    field_simp

example (thr : Thr) (v : ℕ → ℂ) : ∃ r, Computes (complexFFT ℂ thr) 100 [(.fwdu, Ptr.base 1)] (oneArray 100 v)
    (Ptr.base 1) 100 r ∧ Spec.energy 100 r = Spec.energy 100 v := by
  obtain ⟨r, h1, h2, _⟩ := C09_parseval thr (validLen_of_le (n := 100) (by omega) (by omega))
    (oneArray_ok 100 v) .fwdu
  exact ⟨r, h1, h2 (by simp)⟩

/-! ### C39: convolution -/

/-- C39: transform `a` and `b` with `fwd0`, multiply the results, apply `invn`: the circular
convolution of `a` and `b`. -/
theorem C39_convolution (thr : Thr) (hn : ValidLen n) (a b : ℕ → ℂ) :
    ∃ A B : ℕ → ℂ,
      (∀ w x, UserArray w x n a → Computes (complexFFT ℂ thr) n [(.fwd0, x)] w x n A) ∧
      (∀ w x, UserArray w x n b → Computes (complexFFT ℂ thr) n [(.fwd0, x)] w x n B) ∧
      (∀ w x, UserArray w x n (fun k => A k * B k) →
        Computes (complexFFT ℂ thr) n [(.invn, x)] w x n (Spec.conv n a b)) := by
  refine ⟨Spec.dft n a, Spec.dft n b, fun w x h => C01_fwd0 thr hn h, fun w x h => C01_fwd0 thr hn h, ?_⟩
  intro w x h
  have h2 := hn.two
  have h0 : (n : ℂ) ≠ 0 := by exact_mod_cast (by omega : n ≠ 0)
  refine computes_out hn h [.invn] _ fun t ht => ?_
  show fftOut ℂ thr true .scale_length n _ t = _
  rw [fftOut_C h2 _ ht, ← Spec.idft_eq, conv_inv a b ht]
  simp [scC]
  field_simp

example (thr : Thr) (a b : ℕ → ℂ) : ∃ A B : ℕ → ℂ, Computes (complexFFT ℂ thr) 7 [(.invn, Ptr.base 1)]
    (oneArray 7 (fun k => A k * B k)) (Ptr.base 1) 7 (Spec.conv 7 a b) := by
  obtain ⟨A, B, _, _, h⟩ := C39_convolution thr (validLen_of_le (n := 7) (by omega) (by omega)) a b
  exact ⟨A, B, h _ _ (oneArray_ok _ _)⟩

/-! ### C13: the algorithms are interchangeable -/

/-- C13: whichever algorithm class is used (Stockham DIF or DIT of radix 4, 8, 16, six-step — which
includes the eight-step variant for odd `k` — or mixed radix), a transform of length `2^k` leaves
the same scaled DFT in `x`; only `x` and the work area `y` are touched. -/
theorem C13_algorithms_agree (thr : Thr) (kind : AlgoKind) (k : ℕ) (h1 : 1 ≤ k) (h24 : k ≤ 24)
    (inv : Bool) (mode : ScaleMode) {y : Ptr} (hx : UserArray w x (2 ^ k) v)
    (hy : Alloc w.heap y (2 ^ k)) (hxy : Sep x (2 ^ k) y (2 ^ k)) :
    (algoOnce ℂ thr kind (2 ^ k) inv mode x y).wp (fun ok w' =>
      ok = true →
        Arr w'.heap x (2 ^ k) (fun t =>
          (match mode with
            | .scale_1 => 1
            | .scale_unitary => ((1 / Real.sqrt (2 ^ k) : ℝ) : ℂ)
            | .scale_length => 1 / (2 ^ k)) *
          (if inv then Spec.idft (2 ^ k) v t else Spec.dft (2 ^ k) v t)) ∧
        ∀ l, l ∉ Region x (2 ^ k) ∪ Region y (2 ^ k) → w'.heap l = w.heap l) w ∧
    (algoOnce ℂ thr kind (2 ^ k) inv mode x y).NoFail (fun ok => ok = true) := by
  have hu : kind.Usable (2 ^ k) := by cases kind <;> first | exact ⟨k, rfl, h1, h24⟩ | trivial
  refine ⟨Act.wp_mono (algoOnce_spec (validLen_pow k h1 (by omega)) hu hx hy hxy) ?_, algoOnce_noFail⟩
  rintro ok w' ⟨_, b, _⟩ hok
  refine ⟨(b hok).1.congr fun t ht => ?_, (b hok).2⟩
  rw [algoOut_C hu (validLen_pow k h1 (by omega)).two v ht]
  have e : xdft inv (2 ^ k) v t = if inv then Spec.idft (2 ^ k) v t else Spec.dft (2 ^ k) v t := by
    unfold xdft; split <;> rfl
  rw [e]
  cases mode <;> simp [scC]

/-- two arrays of length `n` -/
def twoArrays {C : Type} (n : ℕ) (v : ℕ → C) : World C where
  heap := fun l => if l.1 = 1 ∨ l.1 = 2 then (if l.2 < n then some (some (v l.2)) else none) else none
  live := {1, 2}

theorem twoArrays_ok {C : Type} (n : ℕ) (v : ℕ → C) : UserArray (twoArrays n v) (Ptr.base 1) n v where
  wf := ⟨by simp [twoArrays], fun l hl => by
    simp only [twoArrays, Set.mem_insert_iff, Set.mem_singleton_iff] at hl ⊢; rw [if_neg hl]⟩
  arr := fun i hi => by simp [twoArrays, Ptr.base, Ptr.loc, hi]

example (thr : Thr) (kind : AlgoKind) (v : ℕ → ℂ) : ∃ w',
    (algoOnce ℂ thr kind (2 ^ 20) false .scale_1 (Ptr.base 1) (Ptr.base 2)).Runs (twoArrays (2 ^ 20) v) true w' ∧
    Arr w'.heap (Ptr.base 1) (2 ^ 20) (Spec.dft (2 ^ 20) v) := by
  obtain ⟨h1, h2⟩ := C13_algorithms_agree thr kind 20 (by omega) (by omega) false .scale_1
    (twoArrays_ok (2 ^ 20) v) (y := Ptr.base 2)
    (fun i hi => by simp only [twoArrays, Ptr.base, Ptr.loc_add, Nat.zero_add, hi]; simp) (Sep.of_buf (by simp [Ptr.base]) _ _)
  obtain ⟨a, w', hr, ha, hq⟩ := Act.wp_exists_ok h1 h2 (by simp [twoArrays])
  subst ha
  refine ⟨w', hr, (hq rfl).1.congr fun t _ => ?_⟩
  simp

/-! ### C25: odd lengths -/

/-- C25: odd lengths (not documented) work as well. -/
theorem C25_odd (thr : Thr) (h3 : 3 ≤ n) (_hodd : n % 2 = 1) (hq : ∀ q, q.Prime → q ∣ n → q ≤ 46341)
    (hi : n < 2 ^ 31) (hx : UserArray w x n v) :
    Computes (complexFFT ℂ thr) n [(.fwd0, x)] w x n (Spec.dft n v) ∧
    Computes (complexFFT ℂ thr) n [(.invn, x)] w x n (fun k => 1 / (n : ℂ) * Spec.idft n v k) :=
  ⟨C01_fwd0 thr ⟨by omega, hq, hi⟩ hx, C05_invn thr ⟨by omega, hq, hi⟩ hx⟩

example (thr : Thr) (v : ℕ → ℂ) : Computes (complexFFT ℂ thr) 1155 [(.fwd0, Ptr.base 1)] (oneArray 1155 v)
    (Ptr.base 1) 1155 (Spec.dft 1155 v) :=
  (C25_odd thr (by omega) (by omega) (validLen_of_le (n := 1155) (by omega) (by omega)).small (by omega)
    (oneArray_ok 1155 v)).1

end OTFFT.Props
