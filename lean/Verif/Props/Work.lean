/-
C54: how much work a transform, a `setup` and a whole client program do: loads and stores over all threads, and
memory requested. All theorems hold for any arithmetic, any OpenMP thresholds, any schedule and any `malloc`.
-/
import Verif.Proof.WorkLife
import Verif.Props.Raw

namespace OTFFT.Props
open OTFFT

variable {F C : Type} [DArith F] [CArith F C] {thr : Thr}

/-! ### One transform -/

section calls
variable [Inhabited C] {w0 w : World C} {n : ℕ}

/-- C54: after any history, a complex transform of length `n` makes at most `n (3 S + 2)` loads and stores, where
`S` is the sum of the prime factors of `n`. -/
theorem C54_complex {o : FFT} (hw : w0.WF) (ha : After (complexFFT C thr) intLen complexOK w0 n o w) (e : Entry) (x : Ptr) :
    ((complexFFT C thr).call o (e, x)).WorkAtMost (n * (3 * sumFactors n + 2)) :=
  TasksAM.code (FFT0.call_am (ha.complex hw).2.1.fft)

/-- C54: for a power of two at most `2 n (log₂ n + 5)` -/
theorem C54_complex_pow {k : ℕ} {o : FFT} (hw : w0.WF) (ha : After (complexFFT C thr) intLen complexOK w0 (2 ^ k) o w)
    (e : Entry) (x : Ptr) : ((complexFFT C thr).call o (e, x)).WorkAtMost (2 * 2 ^ k * (k + 5)) :=
  TasksAM.code (FFT0.call_pow_am (ha.complex hw).2.1.fft)

/-- C54: for lengths all whose prime factors are at most `P`, at most `n (3 P log₂ n + 2)` -/
theorem C54_complex_smooth {P : ℕ} {o : FFT} (hw : w0.WF) (ha : After (complexFFT C thr) intLen complexOK w0 n o w)
    (hn : n ≠ 0) (hP : ∀ p, p.Prime → p ∣ n → p ≤ P) (e : Entry) (x : Ptr) :
    ((complexFFT C thr).call o (e, x)).WorkAtMost (n * (3 * (P * Nat.log 2 n) + 2)) := fun h k d hr =>
  (C54_complex hw ha e x h k d hr).trans
    (Nat.mul_le_mul_left _ (Nat.add_le_add_right (Nat.mul_le_mul_left _ (sumFactors_smooth n hn hP)) 2))

/-- C54: a prime factor `p ≥ 7` of the length costs: every complete transform makes at least `2 p n` loads and
stores. -/
theorem C54_complex_prime {p : ℕ} {o : FFT} (hw : w0.WF) (ha : After (complexFFT C thr) intLen complexOK w0 n o w)
    (hp : p.Prime) (h7 : 7 ≤ p) (hd : p ∣ n) (hn : n ≠ 0) (e : Entry) (x : Ptr) :
    ((complexFFT C thr).call o (e, x)).WorkAtLeast (2 * p * n) := fun h k d hr hf =>
  (Nat.mul_le_mul_right _ (Nat.mul_le_mul_left _ (largeFactors_le hp h7 hd hn))).trans
    (TasksAL.code (FFT0.call_al (ha.complex hw).2.1.fft (e := e) (x := x) (y := o.y)) h k d hr hf)

/-- C54: real transforms of even length -/
theorem C54_real {o : RFFT} (hw : w0.WF) (ha : After (realFFT C thr) intLen realOK w0 n o w) (e : Entry) (x y : Ptr) :
    ((realFFT C thr).call o (e, x, y)).WorkAtMost (n / 2 * (3 * sumFactors (n / 2) + 2) + 4 * n + 4) :=
  TasksAM.code (RFFT.call_am (ha.real hw).2.1)

/-- C54: cosine transforms of even length -/
theorem C54_dct {o : DCT} (hw : w0.WF) (ha : After (realDCT C thr) dctLen dctOK w0 n o w) (e : DctEntry) (x : Ptr) :
    ((realDCT C thr).call o (e, x)).WorkAtMost (n / 2 * (3 * sumFactors (n / 2) + 2) + 10 * n + 7) :=
  TasksAM.code (DCT0.call_am (ha.dct hw).2.1.dct)

/-- C54: Bluestein's algorithm needs at most `12 n (2 log₂ n + 17)` for every length, prime or not. -/
theorem C54_bluestein {o : Bluestein} (hw : w0.WF) (ha : After (bluesteinFFT C thr) blueLen blueOK w0 n o w) (hn : 1 ≤ n)
    (e : Entry) (x : Ptr) : ((bluesteinFFT C thr).call o (e, x)).WorkAtMost (12 * n * (2 * Nat.log 2 n + 17)) :=
  TasksAM.code (Bluestein.call_am hn (ha.blue hw).2.1)

/-- C54: classes with the work area passed by the caller -/
theorem C54_fft0 {o : FFT0} (hw : w0.WF) (ha : After (rawFFT C thr) intLen rawFFTOK w0 n o w) (e : Entry) (x y : Ptr) :
    ((rawFFT C thr).call o (e, x, y)).WorkAtMost (n * (3 * sumFactors n + 2)) :=
  TasksAM.code (FFT0.call_am (ha.rawFFT hw).2.1)

theorem C54_dct0 {o : DCT0} (hw : w0.WF) (ha : After (rawDCT C thr) dctLen rawDCTOK w0 n o w) (e : DctEntry) (x y z : Ptr) :
    ((rawDCT C thr).call o (e, x, y, z)).WorkAtMost (n / 2 * (3 * sumFactors (n / 2) + 2) + 10 * n + 7) :=
  TasksAM.code (DCT0.call_am (ha.rawDCT hw).2.1)

theorem blue_wins {p : ℕ} (h : 199 ≤ p) : 12 * p * (2 * Nat.log 2 p + 17) < 2 * p * p := by
  have hl : Nat.log 2 p ≤ 7 ∨ 8 ≤ Nat.log 2 p := by omega
  have key : 12 * Nat.log 2 p + 102 < p := by
    rcases hl with hl | hl
    · omega
    · have h1 : ∀ k, 8 ≤ k → 12 * k + 102 < 2 ^ k := by
        intro k hk
        induction k, hk using Nat.le_induction with
        | base => norm_num
        | succ k hk ih => rw [pow_succ]; omega
      exact (h1 _ hl).trans_le (Nat.pow_log_le_self 2 (by omega))
  calc 12 * p * (2 * Nat.log 2 p + 17) = 2 * p * (12 * Nat.log 2 p + 102) := by ring
    _ < 2 * p * p := Nat.mul_lt_mul_of_pos_left key (by omega)

/-- C54: for a prime length from 199 on, every complete transform by the complex class makes strictly more loads
and stores than any transform of the same length by the Bluestein class. -/
theorem C54_blue_beats_prime {w0' w' : World C} {p : ℕ} {o : FFT} {b : Bluestein} (hw : w0.WF) (hw' : w0'.WF)
    (ha : After (complexFFT C thr) intLen complexOK w0 p o w) (hb : After (bluesteinFFT C thr) blueLen blueOK w0' p b w')
    (hp : p.Prime) (h : 199 ≤ p) (e e' : Entry) (x x' : Ptr) {g g' : Heap C} {k k' : ℕ} {d d' : Config C}
    (hr : ReachIn (((complexFFT C thr).call o (e, x)).start g) k d) (hf : d.Final)
    (hr' : ReachIn (((bluesteinFFT C thr).call b (e', x')).start g') k' d') : k' < k := by
  have h1 := C54_complex_prime hw ha hp (by omega) (dvd_refl p) (by omega) e x _ _ _ hr hf
  have h2 := C54_bluestein hw' hb (by omega) e' x' _ _ _ hr'
  have h3 := blue_wins h
  omega

end calls

/-! ### `setup` and the constructors: `k` loads and stores, `s` array elements requested -/

/-- C54: `setup(n)` on an object in any state, and the constructor, are linear in `n` in time and in memory. -/
theorem C54_setup_complex (o : FFT) (n : ℤ) :
    ((complexFFT C thr).setup o n).WorkAtMost (2 * n.toNat + 1) (3 * n.toNat + 1) ∧
    ((complexFFT C thr).create n).WorkAtMost (2 * n.toNat + 1) (3 * n.toNat + 1) :=
  ⟨FFT.setup_work, FFT.create_work⟩

theorem C54_setup_real (o : RFFT) (n : ℤ) :
    ((realFFT C thr).setup o n).WorkAtMost (2 * n.toNat + 9) (2 * n.toNat + 2) ∧
    ((realFFT C thr).create n).WorkAtMost (2 * n.toNat + 9) (2 * n.toNat + 2) :=
  ⟨RFFT.setup_work, RFFT.create_work⟩

theorem C54_setup_dct (o : DCT) (n : ℤ) :
    ((realDCT C thr).setup o n).WorkAtMost (3 * n.toNat + 11) (5 * n.toNat + 3) ∧
    ((realDCT C thr).create n).WorkAtMost (3 * n.toNat + 11) (5 * n.toNat + 3) :=
  ⟨DCT.setup_work, DCT.create_work⟩

theorem C54_setup_bluestein (o : Bluestein) (n : ℤ) :
    ((bluesteinFFT C thr).setup o n).WorkAtMost (10 * n.toNat) (22 * n.toNat) ∧
    ((bluesteinFFT C thr).create n).WorkAtMost (10 * n.toNat) (22 * n.toNat) :=
  ⟨Bluestein.setup_work, Bluestein.create_work⟩

/-! ### Whole client programs -/

section lifetimes
variable [Inhabited C] {w : World C}

/-- C54: a whole client program (constructor, any valid sequence of `setup`, transforms and assignments, destructor)
stays within the sum of the budgets of its operations, whichever `setup` throws. -/
theorem C54_lifetime_complex (hw : w.WF) (n : ℤ) (hn : intLen n) (ops : List (Op C (Entry × Ptr)))
    (hv : ValidOps intLen complexOK w n.toNat ops) {k s : ℕ} {ok : Bool} {w' : World C}
    (hr : ((complexFFT C thr).lifetime n ops).RunsIn w k s ok w') :
    k ≤ accesses (fun n => n * (3 * sumFactors n + 2)) (fun n => 2 * n + 1) 0 (.setup n :: ops) ∧
    s ≤ requests (fun n => 3 * n + 1) (.setup n :: ops) :=
  (complexFFTSpec C thr).lifetime_work
    (call := fun n => n * (3 * sumFactors n + 2)) (setup := fun n => 2 * n + 1) (cells := fun n => 3 * n + 1) hw (fun _ => FFT.create_work) (fun _ _ => FFT.setup_work) (fun _ => FFT.destroy_work)
    (fun hr _ => FFT0.call_am hr.fft) n ops hn (hv.toSpec (complexFFTSpec C thr) hw (complexOK.valid hw) ops n.toNat) _ _ _ _ hr

theorem C54_lifetime_real (hw : w.WF) (n : ℤ) (hn : intLen n) (ops : List (Op C (Entry × Ptr × Ptr)))
    (hv : ValidOps intLen realOK w n.toNat ops) {k s : ℕ} {ok : Bool} {w' : World C}
    (hr : ((realFFT C thr).lifetime n ops).RunsIn w k s ok w') :
    k ≤ accesses (fun n => n / 2 * (3 * sumFactors (n / 2) + 2) + 4 * n + 4) (fun n => 2 * n + 9) 0 (.setup n :: ops) ∧
    s ≤ requests (fun n => 2 * n + 2) (.setup n :: ops) :=
  (realFFTSpec C thr).lifetime_work
    (call := fun n => n / 2 * (3 * sumFactors (n / 2) + 2) + 4 * n + 4) (setup := fun n => 2 * n + 9) (cells := fun n => 2 * n + 2) hw (fun _ => RFFT.create_work) (fun _ _ => RFFT.setup_work) (fun _ => RFFT.destroy_work)
    (fun hr _ => RFFT.call_am hr) n ops hn (hv.toSpec (realFFTSpec C thr) hw (realOK.valid hw) ops n.toNat) _ _ _ _ hr

theorem C54_lifetime_dct (hw : w.WF) (n : ℤ) (hn : dctLen n) (ops : List (Op C (DctEntry × Ptr)))
    (hv : ValidOps dctLen dctOK w n.toNat ops) {k s : ℕ} {ok : Bool} {w' : World C}
    (hr : ((realDCT C thr).lifetime n ops).RunsIn w k s ok w') :
    k ≤ accesses (fun n => n / 2 * (3 * sumFactors (n / 2) + 2) + 10 * n + 7) (fun n => 3 * n + 11) 0 (.setup n :: ops) ∧
    s ≤ requests (fun n => 5 * n + 3) (.setup n :: ops) :=
  (realDCTSpec C thr).lifetime_work
    (call := fun n => n / 2 * (3 * sumFactors (n / 2) + 2) + 10 * n + 7) (setup := fun n => 3 * n + 11) (cells := fun n => 5 * n + 3) hw (fun _ => DCT.create_work) (fun _ _ => DCT.setup_work) (fun _ => DCT.destroy_work)
    (fun hr _ => DCT0.call_am hr.dct) n ops hn (hv.toSpec (realDCTSpec C thr) hw (dctOK.valid hw) ops n.toNat) _ _ _ _ hr

theorem C54_lifetime_bluestein (hw : w.WF) (n : ℤ) (hn : blueLen n) (ops : List (Op C (Entry × Ptr)))
    (hv : ValidOps blueLen blueOK w n.toNat ops) {k s : ℕ} {ok : Bool} {w' : World C}
    (hr : ((bluesteinFFT C thr).lifetime n ops).RunsIn w k s ok w') :
    k ≤ accesses (fun n => 12 * n * (2 * Nat.log 2 n + 17)) (fun n => 10 * n) 0 (.setup n :: ops) ∧
    s ≤ requests (fun n => 22 * n) (.setup n :: ops) :=
  (bluesteinSpec C thr).lifetime_work
    (call := fun n => 12 * n * (2 * Nat.log 2 n + 17)) (setup := fun n => 10 * n) (cells := fun n => 22 * n) hw (fun _ => Bluestein.create_work) (fun _ _ => Bluestein.setup_work)
    (fun _ => Bluestein.destroy_work) (fun hr hv => Bluestein.call_am hv.pos hr) n ops hn
    (hv.toSpec (bluesteinSpec C thr) hw (blueOK.valid hw) ops n.toNat) _ _ _ _ hr

end lifetimes

/-! ### Concrete cases -/

section examples
variable [Inhabited C]

/-- an object of length 7 exists as `C54_complex_prime` assumes, its transform has a complete execution, and that
makes between 98 and 161 loads and stores -/
example (v : ℕ → C) : ∃ (o : FFT) (w : World C) (k : ℕ) (d : Config C),
    After (complexFFT C thr) intLen complexOK (oneArray 7 v) 7 o w ∧
    ReachIn (((complexFFT C thr).call o (.fwd, Ptr.base 1)).start w.heap) k d ∧ d.Final ∧ 98 ≤ k ∧ k ≤ 161 := by
  have hw := (oneArray_ok 7 v).wf
  obtain ⟨o, w, ha, hk⟩ := After.exists (complexFFTSpec C thr) (n0 := 7) (ops := []) hw (Set.finite_singleton 1) (complexOK.valid hw) ⟨by omega, by omega⟩
    trivial (Cls.use_noFail (X := complexFFT C thr) (fun _ h => FFT.create_noFail h) (fun _ _ h => FFT.setup_noFail h) _ (by omega) _ (by simp))
  replace ha : After (complexFFT C thr) intLen complexOK (oneArray 7 v) 7 o w := ha
  obtain ⟨h', hd, -⟩ := C11_complex (e := .fwd) (x := Ptr.base 1) hw ha
    ⟨validLen_of_le (n := 7) (by omega) (by omega), (oneArray_ok 7 v).arr.filled.keeps hk rfl⟩ rfl
  obtain ⟨d, hr, hf, -⟩ := hd.terminates
  obtain ⟨k, hr⟩ := hr.counted
  have p7 : Nat.Prime 7 := by decide
  have h1 := C54_complex_prime hw ha p7 (by omega) (dvd_refl 7) (by omega) .fwd (Ptr.base 1) _ _ _ hr hf
  have h2 := C54_complex hw ha .fwd (Ptr.base 1) _ _ _ hr
  have e7 : sumFactors 7 = 7 := sumFactors_prime p7
  rw [e7] at h2
  exact ⟨o, w, k, d, ha, hr, hf, by omega, by omega⟩

/-- a client program that constructs an object of length 12, transforms, sets it up again with 8, transforms, assigns,
transforms and sets it up with 12 runs to the end within 12·23+8·20+8·20+… accesses -/
example (v : ℕ → C) : (∃ k s ok w', ((complexFFT C thr).lifetime 12 sampleOps).RunsIn (oneArray 12 v) k s ok w') ∧
    ∀ k s ok w', ((complexFFT C thr).lifetime 12 sampleOps).RunsIn (oneArray 12 v) k s ok w' → k ≤ 664 ∧ s ≤ 99 := by
  have hw := (oneArray_ok 12 v).wf
  constructor
  · have := (complexFFTSpec C thr).lifetime 12 sampleOps ⟨by omega, by omega⟩ (Owned.start hw)
      ((sample_valid v).toSpec (complexFFTSpec C thr) hw (complexOK.valid hw) sampleOps 12)
    obtain ⟨r, w', hr⟩ := Act.wp_exists this (Set.finite_singleton 1)
    obtain ⟨k, s, hr⟩ := hr.counted
    exact ⟨k, s, r, w', hr⟩
  · intro k s ok w' hr
    have := C54_lifetime_complex hw 12 ⟨by omega, by omega⟩ sampleOps (sample_valid v) hr
    have e8 : sumFactors 8 = 6 := sumFactors_eight
    have e12 : sumFactors 12 = 7 := by
      rw [show 12 = 4 * 3 by rfl, sumFactors_mul (by omega) (by omega), sumFactors_four, sumFactors_three]
    simp [accesses, requests, sampleOps, e8, e12] at this
    exact this

end examples

end OTFFT.Props
