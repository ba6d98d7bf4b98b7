/-
C35 (tables), C36 (factor search and number of passes), C37 (length 0), C40 (index table of the six-step
algorithm).
-/
import Verif.Props.Limits

namespace OTFFT.Props
open OTFFT

variable {F C : Type} [DArith F] [CArith F C] [Inhabited C] {thr : Thr} {w0 w : World C} {n : ℕ}

/-! ### C37: length 0 -/

/-- The code does nothing in any memory: under every schedule it ends (without undefined behaviour) with the
memory unchanged, and never reads or writes a cell. -/
def Inert {C : Type} (c : Code C) : Prop :=
  ∀ h, Confined c h ∅ ∅ ∧ AllSched (fun h' => h' = h) (c.start h)

theorem Good.inert {C : Type} {c : Code C} (g : ∀ h, Good ∅ ∅ c h h) : Inert c := fun h =>
  ⟨(g h).confined (fun _ hl => hl.elim) (fun _ hl => hl.elim), (g h).allSched⟩

theorem loop_empty_good {C : Type} (par : Bool) (f : ℕ → Task C) (h : Heap C) :
    Good ∅ ∅ (Code.loop par (tasks1 0 f)) h h := by
  cases par with
  | false => exact .nil
  | true =>
    refine .cons ⟨fun _ => ∅, fun _ => ∅, fun _ => h, ?_, ?_, ?_, ?_, ?_⟩ .nil
    · intro i p hp; simp [tasks1] at hp
    · intro i j _ hi; simp [tasks1] at hi
    · intro i hi; simp [tasks1] at hi
    · intro i hi; simp [tasks1] at hi
    · intro l _; rfl

theorem mixRun_zero_good {C : Type} [CArith F C] {thr : Thr} {inv : Bool} {mode : ScaleMode} {x y W : Ptr} (h : Heap C) :
    Good ∅ ∅ (mixRun C thr inv mode 0 x y W) h h := by
  unfold mixRun
  have e : ∀ path, mixFFT C inv path 0 1 false x y W = [] := by
    intro path; rw [mixFFT.eq_def]; simp
  simp only [e, Items.region, List.nil_append]
  cases mode with
  | scale_1 => exact .nil
  | scale_length => exact loop_empty_good _ _ _
  | scale_unitary => exact loop_empty_good _ _ _

/-- C37: after any history whose last `setup` was for length 0, a complex transform does nothing. -/
theorem C37_complex {o : FFT} (hw : w0.WF) (ha : After (complexFFT C thr) intLen complexOK w0 0 o w)
    (e : Entry) (x : Ptr) : Inert ((complexFFT C thr).call o (e, x)) := by
  obtain ⟨_, hr, _⟩ := ha.complex hw
  have hob := hr.fft.obj
  have hl : logOf 0 = none := logOf_none fun k => by have := Nat.two_pow_pos k; omega
  rw [hl] at hob
  simp only [dispatch] at hob
  obtain ⟨a, ha', hk, hp, hra⟩ := hob
  unfold Algo.Ready at hra
  rw [hk] at hra
  refine Good.inert fun h => ?_
  show Good ∅ ∅ (o.fft.call C thr e x o.y) h h
  rw [FFT0.call_eq]
  unfold FFT0.obj_call
  rw [ha']
  simp only [Algo.transform, hk]
  rw [hra.1]
  exact mixRun_zero_good h

theorem C37_real {o : RFFT} (hw : w0.WF) (ha : After (realFFT C thr) intLen realOK w0 0 o w)
    (e : Entry) (x y : Ptr) : Inert ((realFFT C thr).call o (e, x, y)) := by
  obtain ⟨_, hr, _⟩ := ha.real hw
  refine Good.inert fun h => ?_
  show Good ∅ ∅ (o.call C thr e x y) h h
  rw [RFFT.call_eq]
  unfold RFFT.invWith RFFT.fwdWith
  simp only [hr.len]
  cases e.isInv <;> exact .nil

theorem C37_dct {o : DCT} (hw : w0.WF) (ha : After (realDCT C thr) dctLen dctOK w0 0 o w)
    (e : DctEntry) (x : Ptr) : Inert ((realDCT C thr).call o (e, x)) := by
  obtain ⟨_, hr, _⟩ := ha.dct hw
  refine Good.inert fun h => ?_
  show Good ∅ ∅ (o.call C thr e x) h h
  rw [DCT.call_eq]
  unfold DCT0.invWith DCT0.fwdWith
  simp only [hr.dct.len]
  cases e.isInv <;> exact .nil

/-- C37: a Bluestein object constructed with a length below 1 allocates nothing, and its transforms do nothing. -/
theorem C37_bluestein {r : Option Bluestein} {m : ℤ} (hm : m < 1)
    (hc : ((bluesteinFFT C thr).create m).Runs w0 r w) :
    w = w0 ∧ ∃ o, r = some o ∧ ∀ e x, Inert ((bluesteinFFT C thr).call o (e, x)) := by
  have e1 : (bluesteinFFT C thr).create m = Act.ret (some Bluestein.empty) := by
    show Bluestein.create C thr m = _
    unfold Bluestein.create Bluestein.setup
    rw [if_pos hm]
    rfl
  rw [e1] at hc
  cases hc
  refine ⟨rfl, _, rfl, fun e x => Good.inert fun h => ?_⟩
  cases e <;> exact .nil

/-- C37: but `setup` with such a length on a Bluestein object that has another length does not change its length: the object
stays what it is, nothing is allocated or freed. -/
theorem C37_bluestein_setup (o : Bluestein) {r : Bluestein × Bool} {m : ℤ} (hm : m < 1)
    (hc : ((bluesteinFFT C thr).setup o m).Runs w0 r w) : r = (o, false) ∧ w = w0 := by
  have e1 : (bluesteinFFT C thr).setup o m = Act.ret (o, false) := by
    show Bluestein.setup C thr o m = _
    unfold Bluestein.setup
    rw [if_pos hm]
  rw [e1] at hc
  cases hc
  exact ⟨rfl, rfl⟩

/-! ### C40 -/

/-- C40: the index table of the six-step algorithm for `2^k` points, `6 ≤ k ≤ 24`; the transform is an
`m × m` matrix with `m = 2^(k/2)` (even `k`) or eight of them with `m = 2^(k/2-1)` (odd `k`). Entry `i` exists
exactly for `i < L`, `L = m/2·(m/2+1)/2` the allocated length; each is a pair of even numbers
`row ≤ col < m`, so it fits a `short`; and every such pair occurs exactly once. -/
theorem C40_indexTable {k : ℕ} (h6 : 6 ≤ k) (h24 : k ≤ 24) :
    let m := if k % 2 = 1 then 2 ^ (k / 2 - 1) else 2 ^ (k / 2)
    let L := m / 2 * (m / 2 + 1) / 2
    (∀ i, i < L → ∃ row col, sixIv k i = some (row, col) ∧ row % 2 = 0 ∧ col % 2 = 0 ∧ row ≤ col ∧ col < m ∧
      col < 2 ^ 15) ∧
    (∀ i, L ≤ i → sixIv k i = none) ∧
    (∀ row col, row % 2 = 0 → col % 2 = 0 → row ≤ col → col < m →
      ∃! i, i < L ∧ sixIv k i = some (row, col)) := by
  intro m L
  have hiv : sixIv k = ivBuild m := by
    unfold sixIv
    rw [if_neg (by omega)]
    show (if k % 2 = 1 then _ else _) = ivBuild (if k % 2 = 1 then _ else _)
    split <;> rfl
  have hm : m ≤ 2 ^ 12 := by
    show (if k % 2 = 1 then _ else _) ≤ _
    split
    · exact Nat.pow_le_pow_right (by omega) (by omega)
    · exact Nat.pow_le_pow_right (by omega) (by omega)
  have hm15 : m ≤ 32768 := le_trans hm (by norm_num)
  have heven : m % 2 = 0 := by
    have : 2 ∣ m := by
      show 2 ∣ (if k % 2 = 1 then _ else _)
      split
      · exact dvd_pow_self 2 (by omega)
      · exact dvd_pow_self 2 (by omega)
    omega
  have hL : L = sixL m := rfl
  rw [hiv]
  have h15 : (2 : ℕ) ^ 15 = 32768 := by norm_num
  refine ⟨fun i hi => ?_, fun i hi => ?_, fun row col hr hc hrc hcm => ?_⟩
  · obtain ⟨u, v, huv, hv, rfl⟩ := sixIdx_surj hi
    exact ⟨2 * u, 2 * v, ivBuild_at hm15 huv hv, by omega, by omega, by omega, by omega, by omega⟩
  · exact ivBuild_out hi
  · obtain ⟨u, rfl⟩ : 2 ∣ row := by omega
    obtain ⟨v, rfl⟩ : 2 ∣ col := by omega
    have huv : u ≤ v := by omega
    have hv : v < m / 2 := by omega
    refine ⟨sixIdx (m / 2) u v, ⟨sixIdx_lt huv hv, ivBuild_at hm15 huv hv⟩, ?_⟩
    rintro i ⟨hi, he⟩
    obtain ⟨u', v', huv', hv', rfl⟩ := sixIdx_surj hi
    rw [ivBuild_at hm15 huv' hv'] at he
    simp only [Option.some.injEq, Prod.mk.injEq] at he
    rw [show u' = u by omega, show v' = v by omega]

/-! ### C36 -/

/-- C36: the factor search, started at an odd `r` below which `n` has no prime factor: whatever it returns is the
smallest prime factor of `n`, and it fails (the `int` product `k*k` overflows) exactly when `n` has no factor up
to 46341 although it is at least `46339²`. (Such `n` below `2^31` are primes, e.g. `2^31 - 1`.) -/
theorem C36_factorSearch {n r : ℕ} (hn : 1 < n) (hodd : n % 2 = 1) (hr : 3 ≤ r) (hro : r % 2 = 1)
    (hr2 : r ≤ 46339) (hmin : ∀ q, q.Prime → q ∣ n → r ≤ q) :
    (∀ k, findK n r = some k → k.Prime ∧ k ∣ n ∧ ∀ q, q.Prime → q ∣ n → k ≤ q) ∧
    (findK n r = none ↔ (∀ q, q.Prime → q ∣ n → 46341 < q) ∧ 46339 ^ 2 ≤ n) := by
  have hp := Nat.minFac_prime (show n ≠ 1 by omega)
  have hrm := hmin _ hp (Nat.minFac_dvd n)
  refine ⟨fun k hk => ?_, ?_⟩
  · have := findK_some n hn hodd _ r k rfl hr hro hrm hk
    subst this
    exact ⟨hp, Nat.minFac_dvd n, fun q hq hd => Nat.minFac_le_of_dvd hq.two_le hd⟩
  · constructor
    · intro h
      have hbig : 46341 < n.minFac := by
        by_contra hc
        rw [findK_eq n hn hodd (by omega) _ r rfl hr hro hrm] at h
        simp at h
      refine ⟨fun q hq hd => lt_of_lt_of_le hbig (Nat.minFac_le_of_dvd hq.two_le hd), ?_⟩
      by_contra hc
      obtain ⟨k, hk⟩ := findK_fits n hn (by omega) _ r rfl (by omega) hro hr2
      rw [hk] at h; simp at h
    · rintro ⟨h1, h2⟩
      cases hk : findK n r with
      | none => rfl
      | some k =>
        exact absurd hk (findK_over n (h1 _ hp (Nat.minFac_dvd n)) h2 _ r k rfl (by omega) hro (by omega))

/-- the hypotheses are met: `7·11` from 7, and a length for which the search fails -/
example : findK 77 7 = some 7 ∧ (∀ q, q.Prime → q ∣ 77 → 7 ≤ q) := by
  refine ⟨by rw [findK.eq_def]; rfl, fun q hq hd => ?_⟩
  rw [show 77 = 7 * 11 by norm_num] at hd
  rcases hq.dvd_mul.1 hd with h | h
  · exact ((Nat.prime_dvd_prime_iff_eq hq (by norm_num)).1 h).ge
  · have := (Nat.prime_dvd_prime_iff_eq hq (by norm_num)).1 h; omega

theorem region_length {C : Type} (its : Items C) : (Items.region its).length ≤ its.length := by
  induction its with
  | nil => simp [Items.region]
  | cons it its ih =>
    obtain ⟨ts, b⟩ := it
    cases b with
    | true => simp only [Items.region, List.length_cons]; omega
    | false =>
      simp only [Items.region]
      split
      · simp
      · rename_i e; rw [e] at ih; simp only [List.length_cons] at ih ⊢; omega

theorem log_div {n r : ℕ} (hr : 2 ≤ r) (hd : r ∣ n) (hlt : r < n) : Nat.log 2 (n / r) + 1 ≤ Nat.log 2 n := by
  have h1 : n / r ≤ n / 2 := Nat.div_le_div_left hr (by omega)
  calc Nat.log 2 (n / r) + 1 ≤ Nat.log 2 (n / 2) + 1 := by have := Nat.log_mono_right (b := 2) h1; omega
    _ = Nat.log 2 n := by
      have := Nat.log_of_one_lt_of_le (b := 2) (n := n) (by omega) (by omega)
      omega

theorem two_le_div {n r : ℕ} (hr : 2 ≤ r) (hd : r ∣ n) (hne : n ≠ r) (hn : 0 < n) : 2 ≤ n / r ∧ r < n := by
  obtain ⟨m, rfl⟩ := hd
  have hm : m ≠ 0 := by rintro rfl; simp at hn
  have hm1 : m ≠ 1 := by rintro rfl; simp at hne
  rw [Nat.mul_div_cancel_left m (by omega)]
  refine ⟨by omega, ?_⟩
  nlinarith [show 2 ≤ m by omega]

theorem mixAny_length {C : Type} [CArith F C] (inv : Bool) (W : Ptr) : ∀ (n r s : ℕ) (eo : Bool) (x y : Ptr), 4 ≤ n → n % 2 = 1 →
    (mixAny C inv .omp r n s eo x y W).length ≤ Nat.log 2 n := by
  intro n
  induction n using Nat.strong_induction_on with
  | _ n ih =>
  intro r s eo x y hn hodd
  have hl : 2 ≤ Nat.log 2 n := by
    have := Nat.log_mono_right (b := 2) hn
    have e : Nat.log 2 4 = 2 := Nat.log_pow (b := 2) (by omega) 2
    omega
  rw [mixAny.eq_def]
  simp only
  cases hf : findK n r with
  | none => simp; omega
  | some k =>
    simp only
    split
    · rw [List.length_append]
      have e1 : (Items.loop (kindBar .omp) (tasks1 s fun q => anyBody C k (fun j => x + (q + s * j))
        (fun a => W + mixIdx inv (n * s) (s * a)) none (fun i => y + (q + s * i)) (List.range k))).length = 1 := rfl
      rw [e1]
      split
      · simp; omega
      · have e2 : (Items.loop (kindNowait .omp) (copyTasks C (n * s) x y)).length = 1 := rfl
        rw [e2]; omega
    · rename_i hkn
      split
      · simp; omega
      · rename_i hk2
        have hkd : k ∣ n := findK_dvd n _ r k rfl hf
        have := two_le_div (by omega) hkd (fun h => hkn h.symm) (by omega)
        have hlog := log_div (by omega) hkd this.2
        have hmodd : n / k % 2 = 1 := by
          by_contra hc
          have h2 : 2 ∣ n / k := by omega
          have := h2.trans (Nat.div_dvd_of_dvd hkd)
          omega
        rw [List.length_append]
        have e1 : ∀ ts : List (Task C), (Items.loop .omp ts).length = 1 := fun _ => rfl
        rw [e1]
        rcases Nat.lt_or_ge (n / k) 4 with h4 | h4
        · -- the last factor is 3
          have : n / k = 3 := by omega
          have h3 : (mixAny C inv .omp k 3 (k * s) (!eo) y x W).length ≤ 2 := by
            rw [mixAny.eq_def]
            simp only
            cases hf3 : findK 3 k with
            | none => simp
            | some k' =>
              simp only
              split
              · rw [List.length_append]
                split <;> simp [Items.loop, kindBar, kindNowait]
              · rename_i hne
                have hd3 : k' ∣ 3 := findK_dvd 3 _ k k' rfl hf3
                rcases (Nat.dvd_prime (by norm_num)).1 hd3 with h | h
                · rw [dif_pos (by omega)]; simp
                · exact absurd h hne
          rw [this]
          have hk3 : 3 ≤ k := by
            by_contra hc
            have : k = 2 := by omega
            subst this
            have : 2 ∣ n := hkd
            omega
          have : 8 ≤ n := by
            have := Nat.div_mul_cancel hkd
            nlinarith
          have hl3 : 3 ≤ Nat.log 2 n := by
            have := Nat.log_mono_right (b := 2) this
            have e : Nat.log 2 8 = 3 := Nat.log_pow (b := 2) (by omega) 3
            omega
          omega
        · have := ih (n / k) (Nat.div_lt_self (by omega) (by omega)) k (k * s) (!eo) y x h4 hmodd
          omega

theorem mixFFT_length {C : Type} [CArith F C] (inv : Bool) (W : Ptr) : ∀ (n s : ℕ) (eo : Bool) (x y : Ptr), 2 ≤ n →
    (mixFFT C inv .omp n s eo x y W).length ≤ Nat.log 2 n := by
  intro n
  induction n using Nat.strong_induction_on with
  | _ n ih =>
  intro s eo x y hn
  have hl : 1 ≤ Nat.log 2 n := Nat.log_pos (by omega) hn
  have core : ∀ {r b : ℕ} (S : BFT r b) (L : ℕ) (tw : ℕ → Fin b → ℕ), (mixCore C S L tw .omp n s x y W).length = 1 :=
    fun _ _ _ => rfl
  have endN : ∀ {r b : ℕ} (S : BFT r b) (L : ℕ) (tw : Fin b → ℕ) (z : Ptr), (mixEnd C S L tw .omp false s x z W).length = 1 :=
    fun _ _ _ _ => rfl
  have endS : ∀ {r b : ℕ} (S : BFT r b) (tw : Fin b → ℕ) (z : Ptr), ¬ 2 ≤ s → (mixEnd C S 1 tw .omp true s x z W).length ≤ 1 := by
    intro r b S tw z hs
    simp only [mixEnd, Items.loop, if_true, List.length_map, tasks1, List.length_range, cnt]
    omega
  have recu : ∀ r, 2 ≤ r → n % r = 0 → n ≠ r →
      (mixFFT C inv .omp (n / r) (r * s) (!eo) y x W).length + 1 ≤ Nat.log 2 n := by
    intro r hr hd hne
    have hdv := Nat.dvd_of_mod_eq_zero hd
    obtain ⟨h2, hlt⟩ := two_le_div hr hdv hne (by omega)
    have := ih (n / r) (Nat.div_lt_self (by omega) (by omega)) (r * s) (!eo) y x h2
    have := log_div hr hdv hlt
    omega
  rw [mixFFT.eq_def]
  simp only
  split
  · simp
  split
  · rename_i h
    split
    · split
      · rw [endN]; exact hl
      · rename_i hs; exact (endS _ _ _ hs).trans hl
    · rename_i hne
      have := recu 8 (by omega) h hne
      rw [List.length_append]
      split <;> rw [core] <;> omega
  split
  · rename_i h
    split
    · split
      · rw [endN]; exact hl
      · rename_i hs; exact (endS _ _ _ hs).trans hl
    · rename_i hne
      have := recu 4 (by omega) h hne
      rw [List.length_append]
      split <;> rw [core] <;> omega
  split
  · rename_i h
    split
    · split
      · rw [endN]; exact hl
      · rename_i hs; exact (endS _ _ _ hs).trans hl
    · rename_i hne
      have := recu 2 (by omega) h hne
      rw [List.length_append]
      split <;> rw [core] <;> omega
  split
  · rename_i h
    split
    · rw [endN]; exact hl
    · rename_i hne
      have := recu 5 (by omega) h hne
      rw [List.length_append, core]; omega
  split
  · rename_i h
    split
    · rw [endN]; exact hl
    · rename_i hne
      have := recu 3 (by omega) h hne
      rw [List.length_append, core]; omega
  · exact mixAny_length inv W n 7 s eo x y (by omega) (by omega)

/-- C36: a parallel mixed-radix transform of length `n` makes at most `log₂ n` passes over the data, and one
more if it scales. -/
theorem C36_passes {inv : Bool} {mode : ScaleMode} {x y W : Ptr} (hn : 2 ≤ n) (hp : thr.mixed ≤ n) :
    (mixRun C thr inv mode n x y W).length ≤ Nat.log 2 n + 1 := by
  unfold mixRun
  simp only [show ¬ n < thr.mixed by omega, if_false, List.length_append, decide_false, Bool.not_false]
  have h1 := region_length (mixFFT C inv .omp n 1 false x y W)
  have h2 := mixFFT_length (C := C) inv W n 1 false x y hn
  have h3 : ∀ f : F, (scalePass C true n f x).length = 1 := fun _ => rfl
  cases mode with
  | scale_1 => simp only [List.length_nil]; omega
  | scale_length => simp only [h3]; omega
  | scale_unitary => simp only [h3]; omega

/-- C36 for the class: after any history, a transform of a length that is not a power of two. -/
theorem C36_complex {o : FFT} (hw : w0.WF) (ha : After (complexFFT C thr) intLen complexOK w0 n o w)
    (hn : 2 ≤ n) (h2 : ∀ k, n ≠ 2 ^ k) (hp : thr.mixed ≤ n) (e : Entry) (x : Ptr) :
    ((complexFFT C thr).call o (e, x)).length ≤ Nat.log 2 n + 1 := by
  obtain ⟨_, hr, _⟩ := ha.complex hw
  have hob := hr.fft.obj
  rw [logOf_none h2] at hob
  simp only [dispatch] at hob
  obtain ⟨a, ha', hk, hp', hra⟩ := hob
  unfold Algo.Ready at hra
  rw [hk] at hra
  show (o.fft.call C thr e x o.y).length ≤ _
  rw [FFT0.call_eq]
  unfold FFT0.obj_call
  rw [ha']
  simp only [Algo.transform, hk]
  rw [hra.1]
  exact C36_passes hn hp

/-- C36: no execution of any transform goes on for ever, not even one with undefined behaviour. -/
theorem C36_terminates {C : Type} (X : Cls C) (o : X.Obj) (c : X.Call) (h : Heap C) :
    ¬ ∃ f : ℕ → Config C, f 0 = (X.call o c).start h ∧ ∀ i, CStep (f i) (f (i + 1)) := by
  rintro ⟨f, -, hf⟩
  have : ∀ d : Config C, Acc (fun b a : Config C => CStep a b) d := fun d => CStep.acc d.rest d.cur d.heap
  obtain ⟨i, hi⟩ := WellFounded.has_min (⟨this⟩ : WellFounded (fun b a : Config C => CStep a b)) (Set.range f) ⟨f 0, 0, rfl⟩
  obtain ⟨⟨j, rfl⟩, hm⟩ := hi
  exact hm (f (j + 1)) ⟨j + 1, rfl⟩ (hf j)

/-! ### C35 -/

/-- Along every execution, every cell that is about to be read holds a value. -/
def ReadsInitialised {C : Type} (c : Code C) (h : Heap C) : Prop :=
  ∀ d, Reach (c.start h) d → ∀ t ∈ d.cur, ∀ l, Prog.access t = some (l, false) → ∃ v, d.heap l = some (some v)

theorem _root_.OTFFT.AllSched.readsInit {C : Type} {Q : Heap C → Prop} {c : Code C} {h : Heap C} (a : AllSched Q (c.start h)) :
    ReadsInitialised c h := by
  intro d hd t ht l hl
  by_contra hc
  push Not at hc
  refine a.noUB hd (Or.inl ⟨t, ht, ?_⟩)
  cases t with
  | load l' k => cases hl; exact .load fun v => hc v
  | ret _ => cases hl
  | store _ _ _ => cases hl
  | ub => cases hl

/-- C35: after any history a complex transform reads no cell of its tables (or of any other memory) that was not
written before. -/
theorem C35_complex {o : FFT} {e : Entry} {x : Ptr} (hw : w0.WF)
    (ha : After (complexFFT C thr) intLen complexOK w0 n o w)
    (hx : complexOK n (e, x) w.heap) (hu : x.buf ∈ w0.live) :
    ReadsInitialised ((complexFFT C thr).call o (e, x)) w.heap := by
  obtain ⟨h', hd⟩ := C11_complex hw ha hx hu
  exact hd.1.readsInit

theorem C35_real {o : RFFT} {e : Entry} {x y : Ptr} (hw : w0.WF)
    (ha : After (realFFT C thr) intLen realOK w0 n o w)
    (hx : realOK n (e, x, y) w.heap) (hux : x.buf ∈ w0.live) (huy : y.buf ∈ w0.live) :
    ReadsInitialised ((realFFT C thr).call o (e, x, y)) w.heap := by
  obtain ⟨h', hd⟩ := C11_real hw ha hx hux huy
  exact hd.1.readsInit

theorem C35_dct {o : DCT} {e : DctEntry} {x : Ptr} (hw : w0.WF)
    (ha : After (realDCT C thr) dctLen dctOK w0 n o w)
    (hx : dctOK n (e, x) w.heap) (hu : x.buf ∈ w0.live) :
    ReadsInitialised ((realDCT C thr).call o (e, x)) w.heap := by
  obtain ⟨h', hd⟩ := C11_dct hw ha hx hu
  exact hd.1.readsInit

theorem C35_bluestein {o : Bluestein} {e : Entry} {x : Ptr} (hw : w0.WF)
    (ha : After (bluesteinFFT C thr) blueLen blueOK w0 n o w)
    (hx : blueOK n (e, x) w.heap) (hu : x.buf ∈ w0.live) :
    ReadsInitialised ((bluesteinFFT C thr).call o (e, x)) w.heap := by
  obtain ⟨h', hd⟩ := C11_bluestein hw ha hx hu
  exact hd.1.readsInit

section exact
open Complex
variable {w0 w : World ℂ}

theorem om_false (n : ℕ) : om false n = exp (-2 * Real.pi * I / n) := by
  unfold om
  congr 1
  simp

/-- C35, exact arithmetic: an object of a length that is not a power of two holds all `n+1` powers of
`exp(-2πi/n)` in a block of its own. -/
theorem C35_mixedTable {o : FFT} (hw : w0.WF)
    (ha : After (complexFFT ℂ thr) intLen complexOK w0 n o w) (h1 : 1 ≤ n) (h2 : ∀ k, n ≠ 2 ^ k) :
    ∃ p : Ptr, p.buf ∈ w.live \ w0.live ∧
      ∀ t ≤ n, w.heap (p + t).loc = some (some (exp (-2 * Real.pi * I / n) ^ t)) := by
  obtain ⟨ow, hr, _⟩ := ha.complex hw
  have hob := hr.fft.obj
  rw [logOf_none h2] at hob
  simp only [dispatch] at hob
  obtain ⟨a, ha', hk, hp', hra⟩ := hob
  unfold Algo.Ready at hra
  rw [hk] at hra
  have htab : Arr w.heap a.W (n + 1) (mixTabVal ℂ n) := hra.2 h1
  have hne : a.W.buf ≠ 0 := ow.wf.buf_ne (Nat.succ_pos n) htab.alloc
  have hb : a.W.buf ∈ a.blocks := hp'.W.resolve_left hne
  refine ⟨a.W, (ow.mem_blocks _).1 ?_, fun t ht => ?_⟩
  · unfold FFT.blocks FFT0.blocks
    rw [ha']
    exact List.mem_append_left _ hb
  · rw [htab t (by omega), mixTabVal_C, om_false]

/-- C35 for `RealFFT`: the table `(1 + i·exp(-2πi t/n))/2`, `t ≤ n`. -/
theorem C35_realTable {o : RFFT} (hw : w0.WF)
    (ha : After (realFFT ℂ thr) intLen realOK w0 n o w) (hn : 1 ≤ n) :
    ∃ b ∈ w.live \ w0.live,
      ∀ t ≤ n, w.heap (b, t) = some (some ((1 + I * exp (-2 * Real.pi * I / n) ^ t) / 2)) := by
  obtain ⟨ow, hr, _⟩ := ha.real hw
  obtain ⟨b, hb, -, ht⟩ := hr.weight
  refine ⟨b, (ow.mem_blocks _).1 (by simp [RFFT.blocks, hb]), fun t h => ?_⟩
  have := ht hn t (by omega)
  rw [rfftTab_C hn (by omega)] at this
  rw [rfftW, om_false] at this
  rw [← this]
  simp [Ptr.base]

/-- C35 for `RealDCT`: the table `exp(iπt/(2n))`, `t ≤ n`. -/
theorem C35_dctTable {o : DCT} (hw : w0.WF)
    (ha : After (realDCT ℂ thr) dctLen dctOK w0 n o w) (hn : 2 ≤ n) :
    ∃ b ∈ w.live \ w0.live,
      ∀ t ≤ n, w.heap (b, t) = some (some (exp (t * (Real.pi / (2 * n)) * I))) := by
  obtain ⟨ow, hr, _⟩ := ha.dct hw
  obtain ⟨b, hb, -, ht⟩ := hr.dct.weight
  refine ⟨b, (ow.mem_blocks _).1 (by simp [DCT.blocks, DCT0.blocks, hb]), fun t h => ?_⟩
  have := ht hn t (by omega)
  rw [dctTab_C (by omega) (by omega)] at this
  have e : exp (t * (Real.pi / (2 * n)) * I) = dctV n t := by
    have : (t * (Real.pi / (2 * n)) * I : ℂ) = ((t * (Real.pi / (2 * n)) : ℝ) : ℂ) * I := by push_cast; ring
    rw [this]
    apply Complex.ext
    · rw [exp_ofReal_mul_I_re]; rfl
    · rw [exp_ofReal_mul_I_im]; rfl
  rw [e, ← this]
  simp [Ptr.base]

/-- C35 for Bluestein objects: the chirp table `exp(-πi t/n)`, `t ≤ 2n`. -/
theorem C35_bluesteinTable {o : Bluestein} (hw : w0.WF)
    (ha : After (bluesteinFFT ℂ thr) blueLen blueOK w0 n o w) (hn : 1 ≤ n) :
    ∃ b ∈ w.live \ w0.live,
      ∀ t ≤ 2 * n, w.heap (b, t) = some (some (exp (-Real.pi * I / n) ^ t)) := by
  obtain ⟨ow, hr, _⟩ := ha.blue hw
  obtain ⟨b, hb, -, ht⟩ := (hr hn).weight
  refine ⟨b, (ow.mem_blocks _).1 (by simp [Bluestein.blocks, hb]), fun t h => ?_⟩
  have := ht t (by omega)
  rw [blueTab_C hn (by omega), om_false] at this
  have e : (-2 * Real.pi * I / ((2 * n : ℕ) : ℂ)) = -Real.pi * I / n := by
    have : (n : ℂ) ≠ 0 := by exact_mod_cast (show n ≠ 0 by omega)
    push_cast
    field_simp
  rw [e] at this
  rw [← this]
  simp [Ptr.base]

end exact

example : (if 20 % 2 = 1 then 2 ^ (20 / 2 - 1) else 2 ^ (20 / 2)) = 1024 := by norm_num

end OTFFT.Props
