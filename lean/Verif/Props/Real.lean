/-
C15, C16, C17, C19: what the real transforms compute.
-/
import Verif.Proof.RFFTRun
import Verif.Props.Complex

namespace OTFFT.Props
open OTFFT

variable {thr : Thr} {n : ℕ} {w : World ℂ} {x y z : Ptr}

/-- the arguments of a forward real transform: a real vector `x[0..n)` and room for `n` complex
numbers at `y`, not overlapping -/
structure FwdArgs (w : World ℂ) (n : ℕ) (x y : Ptr) (r : ℕ → ℝ) : Prop where
  wf : w.WF
  len : RealLen n
  arr : Arr w.heap x n (Spec.ofReal r)
  room : Alloc w.heap y n
  sep : Sep x n y n

/-- the arguments of an inverse real transform: the first `n/2+1` entries of a conjugate symmetric
vector in an array `x[0..n)`, and room for `n` doubles at `y` -/
structure InvArgs (w : World ℂ) (n : ℕ) (x y : Ptr) (X : ℕ → ℂ) : Prop where
  wf : w.WF
  len : RealLen n
  herm : Spec.Hermitian n X
  arr : Arr w.heap x (n / 2 + 1) X
  roomx : Alloc w.heap x n
  roomy : Alloc w.heap y n
  sep : Sep x n y n

theorem ComputesIn.toComputes {C : Type} {w : World C} {X : Cls C} {cs : List X.Call} {D : Set Loc} {out : Ptr} {m : ℕ} {r r' : ℕ → C}
    (h : ComputesIn X n cs w D out m r) (hD : D ⊆ Region out m) (hr : ∀ t < m, r t = r' t) :
    Computes X n cs w out m r' := by
  refine ⟨Act.wp_mono h.1 ?_, h.2⟩
  rintro ok w' ⟨a, b, c⟩
  exact ⟨a, fun hok => ⟨(b hok).1.congr hr, fun l hl => (b hok).2 l fun h => hl (h.elim id fun h => hD h)⟩, c⟩

theorem ComputesIn.congr {C : Type} {w : World C} {X : Cls C} {cs : List X.Call} {D : Set Loc} {out : Ptr} {m : ℕ} {r r' : ℕ → C}
    (h : ComputesIn X n cs w D out m r) (hr : ∀ t < m, r t = r' t) : ComputesIn X n cs w D out m r' := by
  refine ⟨Act.wp_mono h.1 ?_, h.2⟩
  rintro ok w' ⟨a, b, c⟩
  exact ⟨a, fun hok => ⟨(b hok).1.congr hr, (b hok).2⟩, c⟩

theorem FwdArgs.args {r : ℕ → ℝ} (a : FwdArgs w n x y r) {e : Entry} (he : e.isInv = false) :
    RealArgs w e n x y (Spec.ofReal r) :=
  ⟨a.wf, a.len, by rw [rfftNeed, he]; exact a.arr, a.arr.alloc, a.room, a.sep⟩

theorem real_fwd {r : ℕ → ℝ} (thr : Thr) (a : FwdArgs w n x y r) (e : Entry) (he : e.isInv = false) :
    Computes (realFFT ℂ thr) n [(e, x, y)] w y n (fun k => scC n e.mode * Spec.dft n (Spec.ofReal r) k) := by
  refine ComputesIn.toComputes (RFFT.computes (a.args he)) ?_ fun t ht => ?_
  · rw [rfftDirty, he]; exact le_refl _
  · exact rfftOut_fwd thr he a.len _ ht

/-- C15: `fwd0(x, y)` writes the DFT of the real vector `x` to `y` (all `n` entries, not only the first half).
Nothing else changes, in particular not `x`. -/
theorem C15_fwd0 {r : ℕ → ℝ} (thr : Thr) (a : FwdArgs w n x y r) :
    Computes (realFFT ℂ thr) n [(.fwd0, x, y)] w y n (Spec.dft n (Spec.ofReal r)) := by
  have := real_fwd thr a .fwd0 rfl
  simpa [scC, Entry.mode] using this

/-- C15: whatever the forward transform, the output is conjugate symmetric. -/
theorem C15_symmetry {r : ℕ → ℝ} (thr : Thr) (a : FwdArgs w n x y r) (e : Entry)
    (he : e ∈ [Entry.fwd, .fwd0, .fwdu, .fwdn]) :
    ∃ Y, Computes (realFFT ℂ thr) n [(e, x, y)] w y n Y ∧ Spec.Hermitian n Y := by
  have hi : e.isInv = false := by
    simp only [List.mem_cons, List.not_mem_nil, or_false] at he
    rcases he with rfl | rfl | rfl | rfl <;> rfl
  exact ⟨_, real_fwd thr a e hi, hermitian_dft _ (scC_conj _ _) r a.len.pos⟩

/-- C16: `fwd` and `fwdn` are the DFT divided by `n`, `fwdu` is the DFT divided by `√n`. -/
theorem C16_forward {r : ℕ → ℝ} (thr : Thr) (a : FwdArgs w n x y r) :
    Computes (realFFT ℂ thr) n [(.fwd, x, y)] w y n (fun k => 1 / (n : ℂ) * Spec.dft n (Spec.ofReal r) k) ∧
    Computes (realFFT ℂ thr) n [(.fwdn, x, y)] w y n (fun k => 1 / (n : ℂ) * Spec.dft n (Spec.ofReal r) k) ∧
    Computes (realFFT ℂ thr) n [(.fwdu, x, y)] w y n
      (fun k => ((1 / Real.sqrt n : ℝ) : ℂ) * Spec.dft n (Spec.ofReal r) k) := by
  refine ⟨?_, ?_, real_fwd thr a .fwdu rfl⟩
  · have := real_fwd thr a .fwd rfl
    simpa [scC, Entry.mode] using this
  · have := real_fwd thr a .fwdn rfl
    simpa [scC, Entry.mode] using this

theorem InvArgs.args {X : ℕ → ℂ} (a : InvArgs w n x y X) {e : Entry} (he : e.isInv = true) :
    RealArgs w e n x y X :=
  ⟨a.wf, a.len, by rw [rfftNeed, he]; exact a.arr, a.roomx, a.roomy, a.sep⟩

theorem real_inv {X : ℕ → ℂ} (thr : Thr) (a : InvArgs w n x y X) (e : Entry) (he : e.isInv = true) :
    ComputesIn (realFFT ℂ thr) n [(e, x, y)] w (Region x n) y n (fun j => scC n e.mode * Spec.idft n X j) := by
  obtain ⟨h1, h2⟩ := RFFT.computes (thr := thr) (a.args he)
  refine ⟨Act.wp_mono h1 ?_, h2⟩
  rintro ok w' ⟨a', b, c⟩
  refine ⟨a', fun hok => ⟨(b hok).1.congr fun t ht => rfftOut_inv thr he a.len a.herm ht, fun l hl => (b hok).2 l fun h => hl ?_⟩, c⟩
  rw [rfftDirty, he] at h
  rcases h with h | h | h
  · exact Or.inl h
  · exact Or.inr h
  · exact Or.inl h

/-- C16: `inv(x, y)` and `inv0(x, y)` write the unnormalised inverse DFT of the conjugate symmetric vector
whose first `n/2+1` entries are in `x`; `invu` and `invn` divide by `√n` and `n`. The array `x` is used as
work area and overwritten. -/
theorem C16_inverse {X : ℕ → ℂ} (thr : Thr) (a : InvArgs w n x y X) :
    ComputesIn (realFFT ℂ thr) n [(.inv, x, y)] w (Region x n) y n (Spec.idft n X) ∧
    ComputesIn (realFFT ℂ thr) n [(.inv0, x, y)] w (Region x n) y n (Spec.idft n X) ∧
    ComputesIn (realFFT ℂ thr) n [(.invu, x, y)] w (Region x n) y n
      (fun j => ((1 / Real.sqrt n : ℝ) : ℂ) * Spec.idft n X j) ∧
    ComputesIn (realFFT ℂ thr) n [(.invn, x, y)] w (Region x n) y n (fun j => 1 / (n : ℂ) * Spec.idft n X j) := by
  refine ⟨?_, ?_, real_inv thr a .invu rfl, ?_⟩
  · have := real_inv thr a .inv rfl
    simpa [scC, Entry.mode] using this
  · have := real_inv thr a .inv0 rfl
    simpa [scC, Entry.mode] using this
  · have := real_inv thr a .invn rfl
    simpa [scC, Entry.mode] using this

/-- transform pairs whose normalisations cancel -/
theorem real_pair (hn : 0 < n) {f g : Entry} (hfg : (f, g) ∈ [(Entry.fwd, Entry.inv), (.fwd, .inv0), (.fwdn, .inv), (.fwdn, .inv0),
      (.fwd0, .invn), (.fwdu, .invu)]) : f.isInv = false ∧ g.isInv = true ∧ scC n f.mode * scC n g.mode * n = 1 := by
  have h0 : (n : ℂ) ≠ 0 := by exact_mod_cast (by omega : n ≠ 0)
  have hpos : (0 : ℝ) < n := by exact_mod_cast hn
  have hu : scC n .scale_unitary * scC n .scale_unitary * n = 1 := by
    have : (1 / Real.sqrt n) * (1 / Real.sqrt n) * n = 1 := by
      rw [div_mul_div_comm, Real.mul_self_sqrt hpos.le]; field_simp
    simp only [scC]
    exact_mod_cast this
  simp only [List.mem_cons, Prod.mk.injEq, List.not_mem_nil, or_false] at hfg
  rcases hfg with ⟨rfl, rfl⟩ | ⟨rfl, rfl⟩ | ⟨rfl, rfl⟩ | ⟨rfl, rfl⟩ | ⟨rfl, rfl⟩ | ⟨rfl, rfl⟩
  all_goals first | exact ⟨rfl, rfl, hu⟩ | exact ⟨rfl, rfl, by simp [scC, Entry.mode, h0]⟩

theorem rfftOut_twice (thr : Thr) (hl : RealLen n) (r : ℕ → ℝ) {f g : Entry} (key : f.isInv = false ∧ g.isInv = true ∧
    scC n f.mode * scC n g.mode * n = 1) {t : ℕ} (ht : t < n) :
    rfftOut ℂ thr g n (rfftOut ℂ thr f n (Spec.ofReal r)) t = Spec.ofReal r t := by
  have hn := hl.pos
  obtain ⟨hf, hg, hs⟩ := key
  have e1 : ∀ k < n, rfftOut ℂ thr f n (Spec.ofReal r) k = scC n f.mode * Spec.dft n (Spec.ofReal r) k :=
    fun k hk => rfftOut_fwd thr hf hl _ hk
  -- the inverse transform depends on the first `n` entries only
  have e2 : rfftOut ℂ thr g n (rfftOut ℂ thr f n (Spec.ofReal r)) t =
      scC n g.mode * Spec.idft n (rfftOut ℂ thr f n (Spec.ofReal r)) t := by
    refine rfftOut_inv thr hg hl ?_ ht
    intro k hk
    have := hermitian_dft (scC n f.mode) (scC_conj _ _) r hn k hk
    rw [e1 _ (Nat.mod_lt _ hn), e1 k hk]
    exact this
  rw [e2, Spec.idft_eq, xdft_congr true e1, xdft_smul, Spec.dft_eq]
  have := xdft_inv false (Spec.ofReal r) ht
  rw [Bool.not_false] at this
  rw [this]
  linear_combination (Spec.ofReal r t) * hs

/-- C17: a forward transform from `x` to `y` followed by the matching inverse from `y` to `z` (`z` may be `x`)
leaves the original signal in `z`. -/
theorem C17_round_trip {r : ℕ → ℝ} (thr : Thr) (a : FwdArgs w n x y r) (hz : Alloc w.heap z n) (hyz : Sep y n z n)
    (f g : Entry) (hfg : (f, g) ∈ [(Entry.fwd, Entry.inv), (.fwd, .inv0), (.fwdn, .inv), (.fwdn, .inv0),
      (.fwd0, .invn), (.fwdu, .invu)]) :
    ComputesIn (realFFT ℂ thr) n [(f, x, y), (g, y, z)] w (Region y n) z n (Spec.ofReal r) := by
  have key := real_pair a.len.pos hfg
  exact ComputesIn.congr (RFFT.computes2 (a.args key.1) key.1 hz hyz) fun t ht => rfftOut_twice thr a.len r key ht

/-- C19: for every arithmetic (also IEEE double): a forward transform changes nothing but the `n` output cells, all
of which it writes; in particular the input is unmodified. -/
theorem C19_input_unmodified {F C : Type} [DArith F] [CArith F C] [Inhabited C] (thr : Thr) {w : World C} {v : ℕ → C}
    (wf : w.WF) (hn : RealLen n) (hx : Arr w.heap x n v) (hy : Alloc w.heap y n) (hs : Sep x n y n) (e : Entry)
    (he : e ∈ [Entry.fwd, .fwd0, .fwdu, .fwdn]) :
    ((realFFT C thr).lifetime n [.call (e, x, y)]).wp (fun ok w' =>
      Arr w'.heap x n v ∧ (∀ l, l ∉ Region y n → w'.heap l = w.heap l) ∧ (ok = true → Filled w'.heap y n)) w := by
  have hi : e.isInv = false := by
    simp only [List.mem_cons, List.not_mem_nil, or_false] at he
    rcases he with rfl | rfl | rfl | rfl <;> rfl
  have h := RFFT.computes (thr := thr) (e := e)
    (⟨wf, hn, by rw [rfftNeed, hi]; exact hx, hx.alloc, hy, hs⟩ : RealArgs w e n x y v)
  refine Act.wp_mono h.1 ?_
  rintro ok w' ⟨a, b, c⟩
  have fr : ∀ l, l ∉ Region y n → w'.heap l = w.heap l := by
    cases ok with
    | false => intro l _; rw [c rfl]
    | true =>
      intro l hl
      refine (b rfl).2 l ?_
      rw [rfftDirty, hi]
      rintro (h | h)
      · exact hl h
      · exact hl h
  refine ⟨fun i hi => ?_, fr, fun hok => (b hok).1.filled⟩
  rw [fr _ (not_mem_region hs hi)]
  exact hx i hi

/-! ### the hypotheses can be met -/

theorem twoArrays_fwd (hn : RealLen n) (r : ℕ → ℝ) :
    FwdArgs (twoArrays n (Spec.ofReal r)) n (Ptr.base 1) (Ptr.base 2) r where
  wf := (twoArrays_ok n _).wf
  len := hn
  arr := (twoArrays_ok n _).arr
  room := fun i hi => by simp only [twoArrays, Ptr.base, Ptr.loc_add, Nat.zero_add, hi]; simp
  sep := Sep.of_buf (by simp [Ptr.base]) _ _

theorem realLen_of_le {m : ℕ} (h2 : 2 ≤ m) (h : m ≤ 46341) : RealLen (2 * m) := Or.inr ⟨m, rfl, validLen_of_le h2 h, by omega⟩

example (thr : Thr) (r : ℕ → ℝ) : ∀ n ∈ ([1, 4, 6, 1000, 2 ^ 20, 2 * 46337] : List ℕ), ∃ w',
    ((realFFT ℂ thr).lifetime n [.call (.fwd0, Ptr.base 1, Ptr.base 2)]).Runs (twoArrays n (Spec.ofReal r)) true w' ∧
    Arr w'.heap (Ptr.base 2) n (Spec.dft n (Spec.ofReal r)) := by
  intro n hn
  have hl : RealLen n := by
    simp only [List.mem_cons, List.not_mem_nil, or_false] at hn
    rcases hn with rfl | rfl | rfl | rfl | rfl | rfl
    · exact Or.inl rfl
    · exact realLen_of_le (m := 2) (by omega) (by omega)
    · exact realLen_of_le (m := 3) (by omega) (by omega)
    · exact realLen_of_le (m := 500) (by omega) (by omega)
    · exact Or.inr ⟨2 ^ 19, by norm_num, validLen_pow 19 (by omega) (by omega), by omega⟩
    · exact realLen_of_le (m := 46337) (by omega) (by omega)
  obtain ⟨h1, h2⟩ := C15_fwd0 thr (twoArrays_fwd hl r)
  obtain ⟨a, w', hr, ha, hq⟩ := Act.wp_exists_ok h1 h2 (by simp [twoArrays])
  subst ha
  exact ⟨w', hr, (hq.2.1 rfl).1⟩

/-- round trip into the original array -/
example (thr : Thr) (r : ℕ → ℝ) : ∃ w',
    ((realFFT ℂ thr).lifetime 60 [.call (.fwdu, Ptr.base 1, Ptr.base 2), .call (.invu, Ptr.base 2, Ptr.base 1)]).Runs
      (twoArrays 60 (Spec.ofReal r)) true w' ∧ Arr w'.heap (Ptr.base 1) 60 (Spec.ofReal r) := by
  have a := twoArrays_fwd (realLen_of_le (m := 30) (by omega) (by omega)) r
  obtain ⟨h1, h2⟩ := C17_round_trip thr a a.arr.alloc (Sep.of_buf (by simp [Ptr.base]) _ _) .fwdu .invu (by simp)
  obtain ⟨b, w', hr, hb, hq⟩ := Act.wp_exists_ok h1 h2 (by simp [twoArrays])
  subst hb
  exact ⟨w', hr, (hq.2.1 rfl).1⟩

/-- a non-trivial inverse: the spectrum with `X[1] = i`, `X[n-1] = -i` -/
example (thr : Thr) : ∃ X : ℕ → ℂ, X 1 ≠ 0 ∧
    ComputesIn (realFFT ℂ thr) 8 [(.inv, Ptr.base 1, Ptr.base 2)] (twoArrays 8 X) (Region (Ptr.base 1) 8) (Ptr.base 2) 8
      (Spec.idft 8 X) := by
  let X : ℕ → ℂ := fun k => if k = 1 then Complex.I else if k = 7 then -Complex.I else 0
  refine ⟨X, by simp [X], (C16_inverse thr ⟨(twoArrays_ok 8 X).wf, realLen_of_le (m := 4) (by omega) (by omega), ?_,
    fun i hi => (twoArrays_ok 8 X).arr i (by omega), (twoArrays_ok 8 X).arr.alloc, ?_, Sep.of_buf (by simp [Ptr.base]) _ _⟩).1⟩
  · intro k hk
    interval_cases k <;> simp [X]
  · intro i hi; simp only [twoArrays, Ptr.base, Ptr.loc_add, Nat.zero_add, hi]; simp

end OTFFT.Props
