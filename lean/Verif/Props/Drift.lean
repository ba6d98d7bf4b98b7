/-
C86: many round trips. C87: integers survive them.
-/
import Verif.Proof.Trips
import Verif.Props.AccuracyRmsReal
import Verif.Props.AccuracyRmsBlue
import Verif.Props.NearIdentities
import Verif.Props.Exact64

namespace OTFFT.Props

open Finset

/-! ### errors add up -/

theorem drift {V ι : Type} {n : ℕ} (c : V → ℕ → ℂ) (ok : V → Prop) (step : V → ι → V) {ε A : ℝ} (hε : 0 ≤ ε) {v : V} (h0 : ok v)
    (hA : norm2 n (c v) ≤ A) (ps : List ι)
    (hs : ∀ p ∈ ps, ∀ u, ok u → norm2 n (c u) ≤ 3 / 2 * A → ok (step u p) ∧ norm2 n (fun t => c (step u p) t - c u t) ≤ ε * (3 / 2 * A))
    (hr : ps.length * (3 * ε) ≤ 1) :
    ok (ps.foldl step v) ∧ norm2 n (fun t => c (ps.foldl step v) t - c v t) ≤ ps.length * (3 / 2 * ε) * A := by
  have A0 : 0 ≤ A := (norm2_nonneg _ _).trans hA
  induction ps using List.reverseRecOn with
  | nil => exact ⟨h0, by simp [norm2_eq, nrm_zero]⟩
  | append_singleton ps p ih =>
    rw [List.length_append, List.length_singleton] at hr
    push_cast at hr
    obtain ⟨o, e⟩ := ih (fun q hq => hs q (by simp [hq])) (by linarith)
    rw [List.foldl_append]
    show ok (step (ps.foldl step v) p) ∧ _
    have hu : norm2 n (c (ps.foldl step v)) ≤ 3 / 2 * A := by
      have t1 := nrm_add_le (A := range n) (v := fun t => c (ps.foldl step v) t - c v t) (w := c v)
      simp only [sub_add_cancel] at t1
      rw [norm2_eq] at e hA ⊢
      nlinarith
    obtain ⟨o', e'⟩ := hs p (by simp) _ o hu
    refine ⟨o', ?_⟩
    have t1 := nrm_add_le (A := range n) (v := fun t => c (step (ps.foldl step v) p) t - c (ps.foldl step v) t) (w := fun t => c (ps.foldl step v) t - c v t)
    simp only [sub_add_sub_cancel] at t1
    rw [norm2_eq] at e e' ⊢
    rw [List.length_append, List.length_singleton]
    push_cast
    refine le_trans t1 ?_
    nlinarith

theorem grow {a : ℝ} {k : ℕ} (h0 : 0 ≤ a) (h : a ≤ 2 ^ k) : 3 / 2 * a ≤ 2 ^ (k + 1) := by
  rw [pow_succ]
  linarith

theorem map_trips {E : Type} (ps : List (E × E)) (x : Ptr) :
    ((ps.flatMap fun p => [p.1, p.2]).map fun e => (e, x)) = ps.flatMap fun p => [(p.1, x), (p.2, x)] := by
  rw [List.map_flatMap]
  rfl

section
variable {F : Type} [FArith F] [Inhabited F] {val : F → ℝ} {fin : F → Prop} {n : ℕ} {w : World (Xmm F)} {x y : Ptr} {A : ℝ}

/-- the pairs of a forward entry point and the inverse one that undoes it -/
def trips : List (Entry × Entry) := [(.fwd, .inv), (.fwd, .inv0), (.fwdn, .inv), (.fwdn, .inv0), (.fwd0, .invn), (.fwdu, .invu)]

/-- … of the cosine transform -/
def dctTrips : List (DctEntry × DctEntry) := [(.fwd, .inv), (.fwd, .inv0), (.fwdn, .inv), (.fwdn, .inv0), (.fwd0, .invn)]

/-! ### complex -/

omit [FArith F] [Inhabited F] in
theorem fftOuts_trips {C : Type} [DArith F] [CArith F C] (thr : Thr) (n : ℕ) (ps : List (Entry × Entry)) : ∀ v : ℕ → C,
    fftOuts C thr n (ps.flatMap fun p => [p.1, p.2]) v =
      ps.foldl (fun u p => fftOut C thr p.2.isInv p.2.mode n (fftOut C thr p.1.isInv p.1.mode n u)) v := by
  induction ps with
  | nil => exact fun _ => rfl
  | cons p ps ih => exact fun v => ih _

/-- C86: after any sequence of `r` round trips with one object the data differ from the original by at most
`3 r · errWeight2 n · 2⁻⁵²` of `A`, in the 2-norm, as long as that is at most one half. -/
theorem C86_complex (hF : Binary64 F val fin) (i : Target) (thr : Thr) (hn : ValidLen n) {v : ℕ → Xmm F} (hx : UserArray w x n v)
    (hv : ∀ t < n, cfin fin (v t)) (hlo : 1 / 2 ^ 960 ≤ A) (hhi : n * A ≤ 2 ^ 1016) (hvA : norm2 n (fun t => cval val (v t)) ≤ A)
    (ps : List (Entry × Entry)) (hps : ∀ p ∈ ps, p ∈ trips) (hr : ps.length * (6 * errWeight2 n) ≤ 2 ^ 52) :
    letI := i.arith F
    ∃ out : ℕ → Xmm F, Computes (complexFFT (Xmm F) thr) n (ps.flatMap fun p => [(p.1, x), (p.2, x)]) w x n out ∧
      (∀ t < n, cfin fin (out t)) ∧
      norm2 n (fun t => cval val (out t) - cval val (v t)) ≤ ps.length * (3 * errWeight2 n) / 2 ^ 52 * A := by
  letI := i.arith F
  have h2 := hn.two
  have A0 : 0 ≤ A := le_trans (by positivity) hlo
  have run : ∀ cs : List (Entry × Ptr), ((ps.flatMap fun p => [p.1, p.2]).map fun e => (e, x)) = cs → Computes (complexFFT (Xmm F) thr) n cs w x n
      (fftOuts (Xmm F) thr n (ps.flatMap fun p => [p.1, p.2]) v) := by
    rintro _ rfl
    exact ⟨FFT.calls hn hx, FFT.lifetime_noFail _ (by omega) _ (lenNat_calls _)⟩
  refine ⟨_, run _ (map_trips ps x), ?_⟩
  rw [fftOuts_trips]
  have := drift (fun (u : ℕ → Xmm F) t => cval val (u t)) (fun u => ∀ t < n, cfin fin (u t))
    (fun u (p : Entry × Entry) => fftOut (Xmm F) thr p.2.isInv p.2.mode n (fftOut (Xmm F) thr p.1.isInv p.1.mode n u))
    (ε := 2 * errWeight2 n / 2 ^ 52) (by positivity) hv hvA ps (fun p hp u hu huA => by
      refine trip_err2 hF i thr hn hu (le_trans hlo (by linarith)) ?_ huA p.1 p.2 (hps p hp)
      rw [mul_left_comm]
      exact grow (by positivity) hhi) (by
      have : (ps.length:ℝ) * (6 * errWeight2 n) ≤ 2 ^ 52 := by exact_mod_cast hr
      rw [show (ps.length:ℝ) * (3 * (2 * errWeight2 n / 2 ^ 52)) = ps.length * (6 * errWeight2 n) / 2 ^ 52 by ring]
      exact div_le_one_of_le₀ this (by positivity))
  refine ⟨this.1, le_trans this.2 (le_of_eq ?_)⟩
  ring

/-! ### Bluestein -/

omit [FArith F] [Inhabited F] in
theorem blue_trips {C : Type} [DArith F] [CArith F C] (thr : Thr) (n : ℕ) (ps : List (Entry × Entry)) : ∀ v : ℕ → C,
    (ps.flatMap fun p => [p.1, p.2]).foldl (fun u e => blueOutF C thr e n u) v =
      ps.foldl (fun u p => blueOutF C thr p.2 n (blueOutF C thr p.1 n u)) v := by
  induction ps with
  | nil => exact fun _ => rfl
  | cons p ps ih => exact fun v => ih _

/-- C86: Bluestein. -/
theorem C86_bluestein (hF : Binary64 F val fin) (i : Target) (thr : Thr) (h1 : 1 ≤ n) (h29 : n ≤ 2 ^ 29) {v : ℕ → Xmm F} (hx : UserArray w x n v)
    (hv : ∀ t < n, cfin fin (v t)) (hlo : 1 / 2 ^ 900 ≤ A) (hhi : n * (n * (n * A)) ≤ 2 ^ 1009) (hvA : norm2 n (fun t => cval val (v t)) ≤ A)
    (ps : List (Entry × Entry)) (hps : ∀ p ∈ ps, p ∈ trips) (hr : ps.length * (9 * ((165 * Nat.clog 2 n + 222) * (6 * √n))) ≤ 2 ^ 52) :
    letI := i.arith F
    ∃ out : ℕ → Xmm F, Computes (bluesteinFFT (Xmm F) thr) n (ps.flatMap fun p => [(p.1, x), (p.2, x)]) w x n out ∧
      (∀ t < n, cfin fin (out t)) ∧
      norm2 n (fun t => cval val (out t) - cval val (v t)) ≤ ps.length * (9 / 2 * ((165 * Nat.clog 2 n + 222) * (6 * √n))) / 2 ^ 52 * A := by
  letI := i.arith F
  have A0 : 0 ≤ A := le_trans (by positivity) hlo
  have run : ∀ cs : List (Entry × Ptr), ((ps.flatMap fun p => [p.1, p.2]).map fun e => (e, x)) = cs → Computes (bluesteinFFT (Xmm F) thr) n cs w x n
      (ps.foldl (fun u p => blueOutF (Xmm F) thr p.2 n (blueOutF (Xmm F) thr p.1 n u)) v) := by
    rintro _ rfl
    rw [← blue_trips]
    exact ComputesIn.toComputes (Bluestein.computes (thr := thr) hx.wf h1 h29 hx.arr _) (Set.empty_subset _) (fun _ _ => rfl)
  refine ⟨_, run _ (map_trips ps x), ?_⟩
  have := drift (fun (u : ℕ → Xmm F) t => cval val (u t)) (fun u => ∀ t < n, cfin fin (u t))
    (fun u (p : Entry × Entry) => blueOutF (Xmm F) thr p.2 n (blueOutF (Xmm F) thr p.1 n u))
    (ε := 3 * ((165 * Nat.clog 2 n + 222) * (6 * √n) / 2 ^ 52)) (by positivity) hv hvA ps (fun p hp u hu huA => by
      refine blue_trip_err2 hF i thr h1 h29 hu (le_trans hlo (by linarith)) ?_ huA p.1 p.2 (.inl (hps p hp))
      rw [mul_left_comm (n:ℝ) (3 / 2), mul_left_comm (n:ℝ) (3 / 2), mul_left_comm (n:ℝ) (3 / 2)]
      exact grow (by positivity) hhi) (by
      rw [show (ps.length:ℝ) * (3 * (3 * ((165 * Nat.clog 2 n + 222) * (6 * √n) / 2 ^ 52))) =
        ps.length * (9 * ((165 * Nat.clog 2 n + 222) * (6 * √n))) / 2 ^ 52 by ring]
      exact div_le_one_of_le₀ hr (by positivity))
  refine ⟨this.1, le_trans this.2 (le_of_eq ?_)⟩
  ring

/-! ### real -/

theorem real_trip_err2 (hF : Binary64 F val fin) (i : Target) (thr : Thr) (hn : RealLen n) {d : ℕ → F}
    (hA : 1 / 2 ^ 960 ≤ A) (hM : n * A ≤ 2 ^ 1014) (hd : ∀ t < n, fin (d t))
    (hdA : norm2 n (Spec.ofReal fun j => val (d j)) ≤ A) (f g : Entry) (hfg : (f, g) ∈ trips) :
    letI := i.arith F
    (∀ t < n, fin (rfftOut (Xmm F) thr g n (rfftOut (Xmm F) thr f n (doubles d)) t 0)) ∧
      norm2 n (Spec.ofReal fun t => val (rfftOut (Xmm F) thr g n (rfftOut (Xmm F) thr f n (doubles d)) t 0) - val (d t)) ≤
        2 * (errWeight2 (n / 2) + 336) / 2 ^ 52 * A := by
  letI := i.arith F
  have ok := twoArrays_ok n (doubles d)
  have hf : f.isInv = false := (real_pair hn.pos hfg).1
  obtain ⟨out, h, a, b⟩ := C62_real_roundtrip hF i thr hn ok.wf ok.arr (twoArrays_alloc _ _) ok.arr.alloc (twoArrays_sep _) (twoArrays_sep _).symm
    hA hM hd hdA f g hfg
  have h' := RFFT.computes2 (thr := thr) (g := g) (w := twoArrays n (doubles d)) (x := Ptr.base 1) (y := Ptr.base 2) (z := Ptr.base 1)
    ⟨ok.wf, hn, by rw [rfftNeed, hf]; exact ok.arr, ok.arr.alloc, twoArrays_alloc _ _, twoArrays_sep _⟩ hf ok.arr.alloc (twoArrays_sep _).symm
  have e : ∀ t < n, rfftOut (Xmm F) thr g n (rfftOut (Xmm F) thr f n (doubles d)) t 0 = out t := fun t ht => by
    rw [← computesIn_unique (by simp [twoArrays]) h h' t ht]; rfl
  refine ⟨fun t ht => by rw [e t ht]; exact a t ht, le_trans (le_of_eq ?_) b⟩
  rw [norm2_eq, norm2_eq]
  exact nrm_congr fun t ht => by
    unfold Spec.ofReal
    beta_reduce
    rw [e t (mem_range.1 ht)]

theorem real_trips (i : Target) (thr : Thr) (ps : List (Entry × Entry)) (hps : ∀ p ∈ ps, p ∈ trips) (hpos : 0 < n) :
    letI := i.arith F
    ∀ d : ℕ → F, rfftTrips (Xmm F) thr n ps (doubles d) =
      doubles (ps.foldl (fun u p t => rfftOut (Xmm F) thr p.2 n (rfftOut (Xmm F) thr p.1 n (doubles u)) t 0) d) := by
  letI := i.arith F
  induction ps with
  | nil => exact fun _ => rfl
  | cons p ps ih =>
    intro d
    unfold rfftTrips at ih ⊢
    rw [List.foldl_cons, List.foldl_cons, ← ih fun q hq => hps q (by simp [hq])]
    congr 1
    funext t
    exact (rfft_cell i thr (real_pair hpos (hps p (by simp))).2.1 n (rfftOut (Xmm F) thr p.1 n (doubles d)) t).symm

/-- C86: real data, forward from `x` to `y` and back from `y` to `x`, again and again. -/
theorem C86_real (hF : Binary64 F val fin) (i : Target) (thr : Thr) (hn : RealLen n) (hw : w.WF) {d : ℕ → F}
    (hx : Arr w.heap x n (doubles d)) (hy : Alloc w.heap y n) (hxy : Sep x n y n)
    (hA : 1 / 2 ^ 960 ≤ A) (hM : n * A ≤ 2 ^ 1013) (hd : ∀ t < n, fin (d t)) (hdA : norm2 n (Spec.ofReal fun j => val (d j)) ≤ A)
    (ps : List (Entry × Entry)) (hps : ∀ p ∈ ps, p ∈ trips) (hr : ps.length * (6 * (errWeight2 (n / 2) + 336)) ≤ 2 ^ 52) :
    letI := i.arith F
    ∃ out : ℕ → F, ComputesIn (realFFT (Xmm F) thr) n (ps.flatMap fun p => [(p.1, x, y), (p.2, y, x)]) w (Region y n) x n (doubles out) ∧
      (∀ t < n, fin (out t)) ∧
      norm2 n (Spec.ofReal fun t => val (out t) - val (d t)) ≤ ps.length * (3 * (errWeight2 (n / 2) + 336)) / 2 ^ 52 * A := by
  letI := i.arith F
  have A0 : 0 ≤ A := le_trans (by positivity) hA
  have run := RFFT.trips (thr := thr) hw hn hx hy hxy ps fun p hp => (real_pair hn.pos (hps p hp)).1
  rw [real_trips i thr ps hps hn.pos] at run
  refine ⟨_, run, ?_⟩
  have := drift (fun (u : ℕ → F) => Spec.ofReal fun t => val (u t)) (fun u => ∀ t < n, fin (u t))
    (fun u (p : Entry × Entry) t => rfftOut (Xmm F) thr p.2 n (rfftOut (Xmm F) thr p.1 n (doubles u)) t 0)
    (ε := 2 * (errWeight2 (n / 2) + 336) / 2 ^ 52) (by positivity) hd hdA ps (fun p hp u hu huA => by
      have := real_trip_err2 hF i thr hn (le_trans hA (by linarith)) (by
        rw [mul_left_comm]
        exact grow (by positivity) hM) hu huA p.1 p.2 (hps p hp)
      refine ⟨this.1, le_trans (le_of_eq ?_) this.2⟩
      congr 1
      funext t
      simp only [Spec.ofReal, Complex.ofReal_sub]) (by
      have : (ps.length:ℝ) * (6 * (errWeight2 (n / 2) + 336)) ≤ 2 ^ 52 := by exact_mod_cast hr
      rw [show (ps.length:ℝ) * (3 * (2 * (errWeight2 (n / 2) + 336) / 2 ^ 52)) = ps.length * (6 * (errWeight2 (n / 2) + 336)) / 2 ^ 52 by ring]
      exact div_le_one_of_le₀ this (by positivity))
  refine ⟨this.1, le_trans (le_of_eq ?_) (le_trans this.2 (le_of_eq ?_))⟩
  · congr 1
    funext t
    simp only [Spec.ofReal, Complex.ofReal_sub]
  · ring

/-! ### cosine -/

theorem dct_trip_err2 (hF : Binary64 F val fin) (i : Target) (thr : Thr) (hn : RealLen n) (h30 : n < 2 ^ 30) {d : ℕ → F}
    (hA : 1 / 2 ^ 960 ≤ A) (hM : n * A ≤ 2 ^ 1013) (hd : ∀ t < n, fin (d t))
    (hdA : norm2 n (Spec.ofReal fun j => val (d j)) ≤ A) (f g : DctEntry) (hfg : (f, g) ∈ dctTrips) :
    letI := i.arith F
    (∀ t < n, fin (dctOut (Xmm F) thr g n (dctOut (Xmm F) thr f n (doubles d)) t 0)) ∧
      norm2 n (Spec.ofReal fun t => val (dctOut (Xmm F) thr g n (dctOut (Xmm F) thr f n (doubles d)) t 0) - val (d t)) ≤
        (2 * errWeight2 (n / 2) + 1422) / 2 ^ 52 * (√2 * A) := by
  letI := i.arith F
  have ok := oneArray_ok n (doubles d)
  obtain ⟨out, h, a, b⟩ := C62_dct_roundtrip hF i thr hn h30 ok.wf ok.arr hA hM hd hdA f g (.inl hfg)
  have h' : Computes (realDCT (Xmm F) thr) n [(f, Ptr.base 1), (g, Ptr.base 1)] (oneArray n (doubles d)) (Ptr.base 1) n _ :=
    ComputesIn.toComputes (DCT.computes (thr := thr) ok.wf hn h30 ok.arr [f, g]) (Set.empty_subset _) (fun _ _ => rfl)
  have e : ∀ t < n, dctOut (Xmm F) thr g n (dctOut (Xmm F) thr f n (doubles d)) t 0 = out t := fun t ht => by
    have := computes_unique (by simp [oneArray]) h h' t ht
    rw [List.foldl_cons, List.foldl_cons, List.foldl_nil] at this
    rw [← this]; rfl
  refine ⟨fun t ht => by rw [e t ht]; exact a t ht, le_trans (le_of_eq ?_) b⟩
  rw [norm2_eq, norm2_eq]
  exact nrm_congr fun t ht => by
    unfold Spec.ofReal
    beta_reduce
    rw [e t (mem_range.1 ht)]

theorem dct_trips (i : Target) (thr : Thr) (ps : List (DctEntry × DctEntry)) :
    letI := i.arith F
    ∀ d : ℕ → F, (ps.flatMap fun p => [p.1, p.2]).foldl (fun u e => dctOut (Xmm F) thr e n u) (doubles d) =
      doubles (ps.foldl (fun u p t => dctOut (Xmm F) thr p.2 n (dctOut (Xmm F) thr p.1 n (doubles u)) t 0) d) := by
  letI := i.arith F
  induction ps with
  | nil => exact fun _ => rfl
  | cons p ps ih =>
    intro d
    rw [List.flatMap_cons, List.foldl_append, List.foldl_cons (l := ps), ← ih]
    show List.foldl _ (dctOut (Xmm F) thr p.2 n (dctOut (Xmm F) thr p.1 n (doubles d))) _ = _
    congr 1
    funext t
    exact (dct_cell (F := F) i thr p.2 n (v := dctOut (Xmm F) thr p.1 n (doubles d)) (t := t)
      (dct_cell (F := F) i thr p.1 n (v := doubles d) ⟨_, rfl⟩).2).1.symm

/-- C86: cosine transforms. -/
theorem C86_dct (hF : Binary64 F val fin) (i : Target) (thr : Thr) (hn : RealLen n) (h30 : n < 2 ^ 30) {d : ℕ → F}
    (hx : UserArray w x n (doubles d)) (hA : 1 / 2 ^ 960 ≤ A) (hM : n * A ≤ 2 ^ 1012) (hd : ∀ t < n, fin (d t))
    (hdA : norm2 n (Spec.ofReal fun j => val (d j)) ≤ A)
    (ps : List (DctEntry × DctEntry)) (hps : ∀ p ∈ ps, p ∈ dctTrips) (hr : ps.length * (9 * (errWeight2 (n / 2) + 711)) ≤ 2 ^ 52) :
    letI := i.arith F
    ∃ out : ℕ → F, Computes (realDCT (Xmm F) thr) n (ps.flatMap fun p => [(p.1, x), (p.2, x)]) w x n (doubles out) ∧
      (∀ t < n, fin (out t)) ∧
      norm2 n (Spec.ofReal fun t => val (out t) - val (d t)) ≤ ps.length * (9 / 2 * (errWeight2 (n / 2) + 711)) / 2 ^ 52 * A := by
  letI := i.arith F
  have A0 : 0 ≤ A := le_trans (by positivity) hA
  have run : ∀ cs : List (DctEntry × Ptr), ((ps.flatMap fun p => [p.1, p.2]).map fun e => (e, x)) = cs → Computes (realDCT (Xmm F) thr) n cs w x n
      (doubles (ps.foldl (fun u p t => dctOut (Xmm F) thr p.2 n (dctOut (Xmm F) thr p.1 n (doubles u)) t 0) d)) := by
    rintro _ rfl
    rw [← dct_trips i]
    exact ComputesIn.toComputes (DCT.computes (thr := thr) hx.wf hn h30 hx.arr _) (Set.empty_subset _) (fun _ _ => rfl)
  refine ⟨_, run _ (map_trips ps x), ?_⟩
  have hq : √2 ≤ 3 / 2 := by
    rw [Real.sqrt_le_left (by norm_num)]
    norm_num
  have := drift (fun (u : ℕ → F) => Spec.ofReal fun t => val (u t)) (fun u => ∀ t < n, fin (u t))
    (fun u (p : DctEntry × DctEntry) t => dctOut (Xmm F) thr p.2 n (dctOut (Xmm F) thr p.1 n (doubles u)) t 0)
    (ε := 3 * (errWeight2 (n / 2) + 711) / 2 ^ 52) (by positivity) hd hdA ps (fun p hp u hu huA => by
      have := dct_trip_err2 hF i thr hn h30 (le_trans hA (by linarith)) (by
        rw [mul_left_comm]
        exact grow (by positivity) hM) hu huA p.1 p.2 (hps p hp)
      refine ⟨this.1, le_trans (le_of_eq ?_) (this.2.trans ?_)⟩
      · congr 1
        funext t
        simp only [Spec.ofReal, Complex.ofReal_sub]
      · have h1 : √2 * (3 / 2 * A) ≤ 3 / 2 * (3 / 2 * A) := mul_le_mul_of_nonneg_right hq (by positivity)
        refine (mul_le_mul_of_nonneg_left h1 (by positivity)).trans (le_of_eq ?_)
        ring) (by
      have : (ps.length:ℝ) * (9 * (errWeight2 (n / 2) + 711)) ≤ 2 ^ 52 := by exact_mod_cast hr
      rw [show (ps.length:ℝ) * (3 * (3 * (errWeight2 (n / 2) + 711) / 2 ^ 52)) = ps.length * (9 * (errWeight2 (n / 2) + 711)) / 2 ^ 52 by ring]
      exact div_le_one_of_le₀ this (by positivity))
  refine ⟨this.1, le_trans (le_of_eq ?_) (le_trans this.2 (le_of_eq ?_))⟩
  · congr 1
    funext t
    simp only [Spec.ofReal, Complex.ofReal_sub]
  · ring

/-! ### C87: integers -/

theorem entry_le_norm2 {u : ℕ → ℂ} {t : ℕ} (ht : t < n) : ‖u t‖ ≤ norm2 n u := by
  unfold norm2
  refine Real.le_sqrt_of_sq_le ?_
  exact single_le_sum (f := fun t => ‖u t‖ ^ 2) (fun _ _ => by positivity) (mem_range.2 ht)

theorem round_eq_of_near {a : ℝ} {k : ℤ} (h : |a - k| < 1 / 2) : round a = k := by
  rw [abs_lt] at h
  rw [round_eq, Int.floor_eq_iff]
  constructor <;> linarith

theorem norm2_le_of {u : ℕ → ℂ} {M : ℝ} (hM : 0 ≤ M) (h : ∀ t < n, ‖u t‖ ≤ M) : norm2 n u ≤ √n * M := by
  have : nrm (range n) u ≤ nrm (range n) fun _ => (M:ℂ) := nrm_mono fun t ht => by
    rw [Complex.norm_real, Real.norm_of_nonneg hM]
    exact h t (mem_range.1 ht)
  rw [nrm_const, card_range, Complex.norm_real, Real.norm_of_nonneg hM] at this
  exact this

/-- C87: Gaussian integers of absolute value at most `K`: after `r` round trips, rounding to the nearest integers gives the data back
exactly, provided `6 r · errWeight2 n · √n K < 2^52`. -/
theorem C87_complex (hF : Binary64 F val fin) (i : Target) (thr : Thr) (hn : ValidLen n) {v : ℕ → Xmm F} (hx : UserArray w x n v)
    {k : ℕ → Fin 2 → ℤ} (hv : ∀ t < n, ∀ j, fin (v t j) ∧ val (v t j) = k t j) {K : ℝ} (hK1 : 1 ≤ K)
    (hK : ∀ t < n, ((k t 0 : ℝ)) ^ 2 + (k t 1 : ℝ) ^ 2 ≤ K ^ 2)
    (ps : List (Entry × Entry)) (hps : ∀ p ∈ ps, p ∈ trips) (hr : ps.length * (6 * errWeight2 n) * (√n * K) < 2 ^ 52) (hbig : √n * K ≤ 2 ^ 52) :
    letI := i.arith F
    ∃ out : ℕ → Xmm F, Computes (complexFFT (Xmm F) thr) n (ps.flatMap fun p => [(p.1, x), (p.2, x)]) w x n out ∧
      ∀ t < n, ∀ j, round (val (out t j)) = k t j := by
  letI := i.arith F
  have h2 := hn.two
  have hn1 : (1:ℝ) ≤ n := by exact_mod_cast (by omega : 1 ≤ n)
  have q1 : 1 ≤ √(n:ℝ) := Real.one_le_sqrt.2 hn1
  have A1 : 1 ≤ √(n:ℝ) * K := by nlinarith
  obtain ⟨out, h, a, b⟩ := C86_complex hF i thr hn hx (fun t ht => ⟨(hv t ht 0).1, (hv t ht 1).1⟩) (A := √n * K)
    (le_trans (by
      rw [div_le_one (by positivity)]
      exact one_le_pow₀ (by norm_num)) A1)
    (by
      have : (n:ℝ) ≤ 2 ^ 31 := by exact_mod_cast hn.int.le
      calc (n:ℝ) * (√n * K) ≤ 2 ^ 31 * 2 ^ 52 := mul_le_mul this hbig (by positivity) (by positivity)
        _ = 2 ^ 83 := by rw [← pow_add]
        _ ≤ 2 ^ 1016 := pow_le_pow_right₀ (by norm_num) (by norm_num))
    (norm2_le_of (by linarith) fun t ht => by
      refine abs_le_of_sq_le_sq' ?_ (by linarith) |>.2
      rw [← Complex.normSq_eq_norm_sq, Complex.normSq_apply]
      show val (v t 0) * val (v t 0) + val (v t 1) * val (v t 1) ≤ _
      rw [(hv t ht 0).2, (hv t ht 1).2]
      linarith [hK t ht]) ps hps (by
      have : (ps.length:ℝ) * (6 * errWeight2 n) ≤ 2 ^ 52 := by
        refine le_trans ?_ hr.le
        exact le_mul_of_one_le_right (by positivity) A1
      exact_mod_cast this)
  refine ⟨out, h, fun t ht j => round_eq_of_near ?_⟩
  have e := le_trans (entry_le_norm2 (u := fun t => cval val (out t) - cval val (v t)) ht) b
  have e' : ‖cval val (out t) - cval val (v t)‖ < 1 / 2 := by
    refine lt_of_le_of_lt e ?_
    rw [div_mul_eq_mul_div, div_lt_iff₀ (by positivity)]
    linarith
  match j with
  | 0 =>
    rw [← (hv t ht 0).2]
    exact lt_of_le_of_lt (Complex.abs_re_le_norm (cval val (out t) - cval val (v t))) e'
  | 1 =>
    rw [← (hv t ht 1).2]
    exact lt_of_le_of_lt (Complex.abs_im_le_norm (cval val (out t) - cval val (v t))) e'

/-- C87: real integers of absolute value at most `K`, RealFFT. -/
theorem C87_real (hF : Binary64 F val fin) (i : Target) (thr : Thr) (hn : RealLen n) (hw : w.WF) {d : ℕ → F}
    (hx : Arr w.heap x n (doubles d)) (hy : Alloc w.heap y n) (hxy : Sep x n y n)
    {k : ℕ → ℤ} (hv : ∀ t < n, fin (d t) ∧ val (d t) = k t) {K : ℝ} (hK1 : 1 ≤ K) (hK : ∀ t < n, |(k t : ℝ)| ≤ K)
    (ps : List (Entry × Entry)) (hps : ∀ p ∈ ps, p ∈ trips) (hr : ps.length * (6 * (errWeight2 (n / 2) + 336)) * (√n * K) < 2 ^ 52)
    (hbig : √n * K ≤ 2 ^ 52) :
    letI := i.arith F
    ∃ out : ℕ → F, ComputesIn (realFFT (Xmm F) thr) n (ps.flatMap fun p => [(p.1, x, y), (p.2, y, x)]) w (Region y n) x n (doubles out) ∧
      ∀ t < n, round (val (out t)) = k t := by
  letI := i.arith F
  have hn1 : (1:ℝ) ≤ n := by exact_mod_cast hn.pos
  have q1 : 1 ≤ √(n:ℝ) := Real.one_le_sqrt.2 hn1
  have A1 : 1 ≤ √(n:ℝ) * K := by nlinarith
  obtain ⟨out, h, a, b⟩ := C86_real hF i thr hn hw hx hy hxy (A := √n * K)
    (le_trans (by
      rw [div_le_one (by positivity)]
      exact one_le_pow₀ (by norm_num)) A1)
    (by
      have : (n:ℝ) ≤ 2 ^ 31 := by exact_mod_cast RealLen.le31 hn
      calc (n:ℝ) * (√n * K) ≤ 2 ^ 31 * 2 ^ 52 := mul_le_mul this hbig (by positivity) (by positivity)
        _ = 2 ^ 83 := by rw [← pow_add]
        _ ≤ 2 ^ 1013 := pow_le_pow_right₀ (by norm_num) (by norm_num)) (fun t ht => (hv t ht).1)
    (norm2_le_of (by linarith) fun t ht => by
      unfold Spec.ofReal
      beta_reduce
      rw [Complex.norm_real, (hv t ht).2]
      exact hK t ht) ps hps (by
      have : (ps.length:ℝ) * (6 * (errWeight2 (n / 2) + 336)) ≤ 2 ^ 52 := by
        refine le_trans ?_ hr.le
        exact le_mul_of_one_le_right (by positivity) A1
      exact_mod_cast this)
  refine ⟨out, h, fun t ht => round_eq_of_near ?_⟩
  have e := le_trans (entry_le_norm2 ht) b
  unfold Spec.ofReal at e
  beta_reduce at e
  rw [Complex.norm_real, (hv t ht).2] at e
  refine lt_of_le_of_lt e ?_
  rw [div_mul_eq_mul_div, div_lt_iff₀ (by positivity)]
  linarith

/-- C87: the cosine transform. -/
theorem C87_dct (hF : Binary64 F val fin) (i : Target) (thr : Thr) (hn : RealLen n) (h30 : n < 2 ^ 30) {d : ℕ → F}
    (hx : UserArray w x n (doubles d)) {k : ℕ → ℤ} (hv : ∀ t < n, fin (d t) ∧ val (d t) = k t) {K : ℝ} (hK1 : 1 ≤ K)
    (hK : ∀ t < n, |(k t : ℝ)| ≤ K) (ps : List (DctEntry × DctEntry)) (hps : ∀ p ∈ ps, p ∈ dctTrips)
    (hr : ps.length * (9 * (errWeight2 (n / 2) + 711)) * (√n * K) < 2 ^ 52) (hbig : √n * K ≤ 2 ^ 52) :
    letI := i.arith F
    ∃ out : ℕ → F, Computes (realDCT (Xmm F) thr) n (ps.flatMap fun p => [(p.1, x), (p.2, x)]) w x n (doubles out) ∧
      ∀ t < n, round (val (out t)) = k t := by
  letI := i.arith F
  have hn1 : (1:ℝ) ≤ n := by exact_mod_cast hn.pos
  have q1 : 1 ≤ √(n:ℝ) := Real.one_le_sqrt.2 hn1
  have A1 : 1 ≤ √(n:ℝ) * K := by nlinarith
  obtain ⟨out, h, a, b⟩ := C86_dct hF i thr hn h30 hx (A := √n * K)
    (le_trans (by
      rw [div_le_one (by positivity)]
      exact one_le_pow₀ (by norm_num)) A1)
    (by
      have : (n:ℝ) ≤ 2 ^ 31 := by exact_mod_cast RealLen.le31 hn
      calc (n:ℝ) * (√n * K) ≤ 2 ^ 31 * 2 ^ 52 := mul_le_mul this hbig (by positivity) (by positivity)
        _ = 2 ^ 83 := by rw [← pow_add]
        _ ≤ 2 ^ 1012 := pow_le_pow_right₀ (by norm_num) (by norm_num)) (fun t ht => (hv t ht).1)
    (norm2_le_of (by linarith) fun t ht => by
      unfold Spec.ofReal
      beta_reduce
      rw [Complex.norm_real, (hv t ht).2]
      exact hK t ht) ps hps (by
      have : (ps.length:ℝ) * (9 * (errWeight2 (n / 2) + 711)) ≤ 2 ^ 52 := by
        refine le_trans ?_ hr.le
        exact le_mul_of_one_le_right (by positivity) A1
      exact_mod_cast this)
  refine ⟨out, h, fun t ht => round_eq_of_near ?_⟩
  have e := le_trans (entry_le_norm2 ht) b
  unfold Spec.ofReal at e
  beta_reduce at e
  rw [Complex.norm_real, (hv t ht).2] at e
  refine lt_of_le_of_lt e ?_
  rw [div_mul_eq_mul_div, div_lt_iff₀ (by positivity)]
  linarith

/-- C87: Bluestein, Gaussian integers. -/
theorem C87_bluestein (hF : Binary64 F val fin) (i : Target) (thr : Thr) (h1 : 1 ≤ n) (h29 : n ≤ 2 ^ 29) {v : ℕ → Xmm F} (hx : UserArray w x n v)
    {k : ℕ → Fin 2 → ℤ} (hv : ∀ t < n, ∀ j, fin (v t j) ∧ val (v t j) = k t j) {K : ℝ} (hK1 : 1 ≤ K)
    (hK : ∀ t < n, ((k t 0 : ℝ)) ^ 2 + (k t 1 : ℝ) ^ 2 ≤ K ^ 2)
    (ps : List (Entry × Entry)) (hps : ∀ p ∈ ps, p ∈ trips)
    (hr : ps.length * (9 * ((165 * Nat.clog 2 n + 222) * (6 * √n))) * (√n * K) < 2 ^ 52) (hbig : √n * K ≤ 2 ^ 52) :
    letI := i.arith F
    ∃ out : ℕ → Xmm F, Computes (bluesteinFFT (Xmm F) thr) n (ps.flatMap fun p => [(p.1, x), (p.2, x)]) w x n out ∧
      ∀ t < n, ∀ j, round (val (out t j)) = k t j := by
  letI := i.arith F
  have hn1 : (1:ℝ) ≤ n := by exact_mod_cast h1
  have q1 : 1 ≤ √(n:ℝ) := Real.one_le_sqrt.2 hn1
  have A1 : 1 ≤ √(n:ℝ) * K := by nlinarith
  obtain ⟨out, h, a, b⟩ := C86_bluestein hF i thr h1 h29 hx (fun t ht => ⟨(hv t ht 0).1, (hv t ht 1).1⟩) (A := √n * K)
    (le_trans (by
      rw [div_le_one (by positivity)]
      exact one_le_pow₀ (by norm_num)) A1)
    (by
      have : (n:ℝ) ≤ 2 ^ 29 := by exact_mod_cast h29
      calc (n:ℝ) * (n * (n * (√n * K))) ≤ 2 ^ 29 * (2 ^ 29 * (2 ^ 29 * 2 ^ 52)) := by gcongr
        _ = 2 ^ 139 := by rw [← pow_add, ← pow_add, ← pow_add]
        _ ≤ 2 ^ 1009 := pow_le_pow_right₀ (by norm_num) (by norm_num))
    (norm2_le_of (by linarith) fun t ht => by
      refine abs_le_of_sq_le_sq' ?_ (by linarith) |>.2
      rw [← Complex.normSq_eq_norm_sq, Complex.normSq_apply]
      show val (v t 0) * val (v t 0) + val (v t 1) * val (v t 1) ≤ _
      rw [(hv t ht 0).2, (hv t ht 1).2]
      linarith [hK t ht]) ps hps (by
        refine le_trans ?_ hr.le
        exact le_mul_of_one_le_right (by positivity) A1)
  refine ⟨out, h, fun t ht j => round_eq_of_near ?_⟩
  have e := le_trans (entry_le_norm2 (u := fun t => cval val (out t) - cval val (v t)) ht) b
  have e' : ‖cval val (out t) - cval val (v t)‖ < 1 / 2 := by
    refine lt_of_le_of_lt e ?_
    rw [div_mul_eq_mul_div, div_lt_iff₀ (by positivity)]
    linarith
  match j with
  | 0 =>
    rw [← (hv t ht 0).2]
    exact lt_of_le_of_lt (Complex.abs_re_le_norm (cval val (out t) - cval val (v t))) e'
  | 1 =>
    rw [← (hv t ht 1).2]
    exact lt_of_le_of_lt (Complex.abs_im_le_norm (cval val (out t) - cval val (v t))) e'

end

/-! ### the hypotheses are met -/

theorem sqrt_2_20 : √(((2 ^ 20 : ℕ)) : ℝ) = 1024 := by
  rw [show (((2 ^ 20 : ℕ)) : ℝ) = 1024 ^ 2 by norm_num, Real.sqrt_sq (by norm_num)]

/-- IEEE doubles: 16 bit stereo samples in blocks of `2^20`, a hundred round trips with `fwd` and `inv` -/
example [Libm] (thr : Thr) (k : ℕ → Fin 2 → ℤ) (hk : ∀ t j, |k t j| ≤ 2 ^ 15) :
    letI := avxBuild.arith Dbl64
    ∃ out : ℕ → Xmm Dbl64, Computes (complexFFT (Xmm Dbl64) thr) (2 ^ 20 : ℕ)
        ((List.replicate 100 (Entry.fwd, Entry.inv)).flatMap fun p => [(p.1, Ptr.base 1), (p.2, Ptr.base 1)])
        (oneArray (2 ^ 20) fun t j => ⟨.num (k t j) false⟩) (Ptr.base 1) (2 ^ 20) out ∧
      ∀ t < 2 ^ 20, ∀ j, round (out t j).val = k t j := by
  have hkr : ∀ t j, (k t j : ℝ) ^ 2 ≤ (2 ^ 15) ^ 2 := fun t j => by
    have := sq_le_sq' (abs_le.1 (hk t j)).1 (abs_le.1 (hk t j)).2
    exact_mod_cast this
  refine C87_complex ieee_binary64 avxBuild thr (validLen_pow 20 (by norm_num) (by norm_num)) (oneArray_ok _ _) (k := k) (K := 2 ^ 16)
    (fun t _ j => ⟨finite_int (lt_of_le_of_lt (hk t j) (by norm_num)) _, rfl⟩) (by norm_num)
    (fun t _ => by
      have h0 := hkr t 0
      have h1 := hkr t 1
      norm_num at h0 h1 ⊢
      linarith) _ (fun p hp => by
      rw [List.eq_of_mem_replicate hp]
      simp [trips]) ?_ ?_
  · rw [sqrt_2_20, List.length_replicate, C58_weight.1]
    norm_num
  · rw [sqrt_2_20]
    norm_num

/-- … 16 bit mono samples with RealFFT -/
example [Libm] (thr : Thr) (k : ℕ → ℤ) (hk : ∀ t, |k t| ≤ 2 ^ 15) :
    letI := sse2Build.arith Dbl64
    ∃ out : ℕ → Dbl64, ComputesIn (realFFT (Xmm Dbl64) thr) (2 ^ 20 : ℕ)
        ((List.replicate 100 (Entry.fwd0, Entry.invn)).flatMap fun p => [(p.1, Ptr.base 1, Ptr.base 2), (p.2, Ptr.base 2, Ptr.base 1)])
        (twoArrays (2 ^ 20) (doubles fun t => ⟨.num (k t) false⟩)) (Region (Ptr.base 2) (2 ^ 20)) (Ptr.base 1) (2 ^ 20) (doubles out) ∧
      ∀ t < 2 ^ 20, round (out t).val = k t := by
  have ok := twoArrays_ok (2 ^ 20) (doubles fun t => (⟨.num (k t) false⟩ : Dbl64))
  refine C87_real ieee_binary64 sse2Build thr (Or.inr ⟨2 ^ 19, by norm_num, validLen_pow 19 (by norm_num) (by norm_num), by norm_num⟩) ok.wf ok.arr (twoArrays_alloc _ _) (twoArrays_sep _) (k := k) (K := 2 ^ 15)
    (fun t _ => ⟨finite_int (lt_of_le_of_lt (hk t) (by norm_num)) _, rfl⟩) (by norm_num)
    (fun t _ => by exact_mod_cast hk t) _ (fun p hp => by
      rw [List.eq_of_mem_replicate hp]
      simp [trips]) ?_ ?_
  · rw [sqrt_2_20, List.length_replicate, show 2 ^ 20 / 2 = 2 ^ 19 by norm_num, C58_weight.1]
    norm_num
  · rw [sqrt_2_20]
    norm_num

/-- Bluestein, one round trip, length 1009 (prime), samples up to 1000 -/
example [Libm] (thr : Thr) (k : ℕ → Fin 2 → ℤ) (hk : ∀ t j, |k t j| ≤ 1000) :
    letI := sse2Build.arith Dbl64
    ∃ out : ℕ → Xmm Dbl64, Computes (bluesteinFFT (Xmm Dbl64) thr) 1009
        ([(Entry.fwd, Entry.inv)].flatMap fun p => [(p.1, Ptr.base 1), (p.2, Ptr.base 1)])
        (oneArray 1009 fun t j => ⟨.num (k t j) false⟩) (Ptr.base 1) 1009 out ∧
      ∀ t < 1009, ∀ j, round (out t j).val = k t j := by
  have hkr : ∀ t j, (k t j : ℝ) ^ 2 ≤ 1000 ^ 2 := fun t j => by
    have := sq_le_sq' (abs_le.1 (hk t j)).1 (abs_le.1 (hk t j)).2
    exact_mod_cast this
  have hs : √((1009 : ℕ) : ℝ) ≤ 32 := by
    rw [Real.sqrt_le_left (by norm_num)]
    norm_num
  have hs0 : 0 ≤ √((1009 : ℕ) : ℝ) := Real.sqrt_nonneg _
  refine C87_bluestein ieee_binary64 sse2Build thr (by norm_num) (by norm_num) (oneArray_ok _ _) (k := k) (K := 2000)
    (fun t _ j => ⟨finite_int (lt_of_le_of_lt (hk t j) (by norm_num)) _, rfl⟩) (by norm_num)
    (fun t _ => by
      have h0 := hkr t 0
      have h1 := hkr t 1
      norm_num at h0 h1 ⊢
      linarith) _ (by simp [trips]) ?_ ?_
  · have hc : Nat.clog 2 1009 ≤ 10 := Nat.clog_le_of_le_pow (by norm_num)
    have hc' : (Nat.clog 2 1009 : ℝ) ≤ 10 := by exact_mod_cast hc
    have h3 : (165 * (Nat.clog 2 1009 : ℝ) + 222) * (6 * √((1009 : ℕ) : ℝ)) ≤ 1872 * (6 * 32) := by gcongr; linarith
    have h4 : √((1009 : ℕ) : ℝ) * 2000 ≤ 64000 := by linarith
    have h5 : 9 * ((165 * (Nat.clog 2 1009 : ℝ) + 222) * (6 * √((1009 : ℕ) : ℝ))) * (√((1009 : ℕ) : ℝ) * 2000) ≤
        9 * (1872 * (6 * 32)) * 64000 := mul_le_mul (by linarith) h4 (by positivity) (by positivity)
    rw [List.length_singleton, Nat.cast_one, one_mul]
    refine lt_of_le_of_lt h5 (by norm_num)
  · refine le_trans (by linarith : √((1009 : ℕ) : ℝ) * 2000 ≤ 64000) (by norm_num)

end OTFFT.Props
