/-
Work of the transforms of the algorithm classes.
-/
import Verif.Proof.Work

namespace OTFFT

set_option linter.unusedSectionVars false

variable {F C : Type} [DArith F] [CArith F C]

/-- a region with these constructs makes at most `n` accesses -/
def IAM {C : Type} (I : Items C) (n : ℕ) : Prop := TasksAM (I.flatMap Prod.fst) n

theorem IAM.mono {C : Type} {I : Items C} {n m : ℕ} (h : IAM I n) (hm : n ≤ m) : IAM I m := TasksAM.mono h hm

theorem IAM.append {C : Type} {I J : Items C} {n m : ℕ} (h : IAM I n) (h' : IAM J m) : IAM (I ++ J) (n + m) := by
  unfold IAM
  rw [List.flatMap_append]
  exact TasksAM.append h h'

theorem IAM.loop {C : Type} {kind : LoopKind} {ts : List (Task C)} {n : ℕ} (h : TasksAM ts n) : IAM (Items.loop kind ts) n := by
  unfold IAM
  rw [items_loop]
  exact h

theorem IAM.ub {C : Type} {n : ℕ} : IAM ([([.ub], true)] : Items C) n :=
  (TasksAM.cons (a := 0) (b := 0) (n := 0) .ub .nil le_rfl).mono (Nat.zero_le _)

theorem IAM.nil {C : Type} {n : ℕ} : IAM ([] : Items C) n := TasksAM.nil

theorem IAM.region {C : Type} {I : Items C} {n : ℕ} (h : IAM I n) : TasksAM (Items.region I).flatten n := by
  rw [region_flatten]; exact h

theorem cnt_dvd {s L : ℕ} (hL : 0 < L) (h : L ∣ s) : cnt s L * L = s := by
  obtain ⟨m, rfl⟩ := h
  unfold cnt
  rw [show L * m + L - 1 = (L - 1) + L * m by omega, Nat.add_mul_div_left _ _ hL, Nat.div_eq_of_lt (by omega)]
  ring

theorem cnt_one (s : ℕ) : cnt s 1 = s := by simp [cnt]

section stockham
variable (r : ℕ) [NeZero r] (B : BF r) (inv : Bool) (x y W : Ptr)

theorem core_count {r n s L : ℕ} (hr : 0 < r) (hn : r ∣ n) (hL : 0 < L) (hs : L ∣ s) :
    n / r * cnt s L * ((r + (r - 1) + r) * L) ≤ 3 * (n * s) := by
  obtain ⟨m, rfl⟩ := hn
  rw [Nat.mul_div_cancel_left _ hr]
  calc m * cnt s L * ((r + (r - 1) + r) * L) = m * (cnt s L * L) * (r + (r - 1) + r) := by ring
    _ = m * s * (r + (r - 1) + r) := by rw [cnt_dvd hL hs]
    _ ≤ m * s * (3 * r) := Nat.mul_le_mul_left _ (by omega)
    _ = 3 * (r * m * s) := by ring

theorem core_count1 {r N : ℕ} (hr : 0 < r) (hn : r ∣ N) (h2 : 2 ∣ N / r) :
    cnt (N / r) 2 * ((r + (r - 1) + r) * 2) ≤ 3 * N := by
  obtain ⟨m, rfl⟩ := hn
  rw [Nat.mul_div_cancel_left _ hr] at h2 ⊢
  calc cnt m 2 * ((r + (r - 1) + r) * 2) = (cnt m 2 * 2) * (r + (r - 1) + r) := by ring
    _ = m * (r + (r - 1) + r) := by rw [cnt_dvd (by omega) h2]
    _ ≤ m * (3 * r) := Nat.mul_le_mul_left _ (by omega)
    _ = 3 * (r * m) := by ring

theorem omp_count {r N : ℕ} (hr : 1 < r) : N / r / 4 * ((r + 1 + r) * 4) ≤ 3 * N := by
  calc N / r / 4 * ((r + 1 + r) * 4) = (N / r / 4 * 4) * (r + 1 + r) := by ring
    _ ≤ N / r * (r + 1 + r) := Nat.mul_le_mul_right _ (Nat.div_mul_le_self _ _)
    _ ≤ N / r * (3 * r) := Nat.mul_le_mul_left _ (by omega)
    _ = 3 * (N / r * r) := by ring
    _ ≤ 3 * N := Nat.mul_le_mul_left _ (Nat.div_mul_le_self _ _)

theorem omp_count1 {r N : ℕ} (hr : 1 < r) (h2 : 2 ∣ N / r) : cnt (N / r) 2 * ((r + 1 + r) * 2) ≤ 3 * N := by
  calc cnt (N / r) 2 * ((r + 1 + r) * 2) = (cnt (N / r) 2 * 2) * (r + 1 + r) := by ring
    _ = N / r * (r + 1 + r) := by rw [cnt_dvd (by omega) h2]
    _ ≤ N / r * (3 * r) := Nat.mul_le_mul_left _ (by omega)
    _ = 3 * (N / r * r) := by ring
    _ ≤ 3 * N := Nat.mul_le_mul_left _ (Nat.div_mul_le_self _ _)

theorem difCoreS_am {path : Path} {L n s : ℕ} (hr : 1 < r) (hn : r ∣ n) (hL : 0 < L) (hs : L ∣ s) :
    IAM (difCoreS r B inv x y W C path L n s) (3 * (n * s)) := by
  cases path
  · simp only [difCoreS]
    refine IAM.loop ((TasksAM.tasks2 (a := (r + (r - 1) + r) * L) ?_).mono (core_count (by omega) hn hL hs))
    intro p i _ _
    exact bfly_am _ _ _ _
  · simp only [difCoreS]
    refine IAM.loop ((TasksAM.tasks1 (a := (r + 1 + r) * 4) ?_).mono (omp_count hr))
    intro i _
    exact bfly_am _ _ _ _

theorem ditCoreS_am {path : Path} {L n s : ℕ} (hr : 1 < r) (hn : r ∣ n) (hL : 0 < L) (hs : L ∣ s) :
    IAM (ditCoreS r B inv x y W C path L n s) (3 * (n * s)) := by
  cases path
  · simp only [ditCoreS]
    refine IAM.loop ((TasksAM.tasks2 (a := (r + (r - 1) + r) * L) ?_).mono (core_count (by omega) hn hL hs))
    intro p i _ _
    exact bfly_am _ _ _ _
  · simp only [ditCoreS]
    refine IAM.loop ((TasksAM.tasks1 (a := (r + 1 + r) * 4) ?_).mono (omp_count hr))
    intro i _
    exact bfly_am _ _ _ _

theorem difCore1_am {path : Path} {N : ℕ} (hr : 1 < r) (hn : r ∣ N) (h2 : 2 ∣ N / r) :
    IAM (difCore1 r B inv x y W C path N) (3 * N) := by
  cases path
  · simp only [difCore1]
    refine IAM.loop ((TasksAM.tasks1 (a := (r + (r - 1) + r) * 2) ?_).mono (core_count1 (by omega) hn h2))
    intro i _
    exact bfly_am _ _ _ _
  · simp only [difCore1]
    refine IAM.loop ((TasksAM.tasks1 (a := (r + 1 + r) * 2) ?_).mono (omp_count1 hr h2))
    intro i _
    exact bfly_am _ _ _ _

theorem ditCore1_am {path : Path} {N : ℕ} (hr : 1 < r) (hn : r ∣ N) (h2 : 2 ∣ N / r) :
    IAM (ditCore1 r B inv x y W C path N) (3 * N) := by
  cases path
  · simp only [ditCore1]
    refine IAM.loop ((TasksAM.tasks1 (a := (r + (r - 1) + r) * 2) ?_).mono (core_count1 (by omega) hn h2))
    intro i _
    exact bfly_am _ _ _ _
  · simp only [ditCore1]
    refine IAM.loop ((TasksAM.tasks1 (a := (r + 1 + r) * 2) ?_).mono (omp_count1 hr h2))
    intro i _
    exact bfly_am _ _ _ _

theorem endKern_am {kind : LoopKind} {mode : ScaleMode} {s : ℕ} {src dst : Ptr} (hs : s = 1 ∨ 2 ∣ s) :
    IAM (endKern r B C kind mode s src dst) (2 * (r * s)) := by
  unfold endKern
  simp only
  split
  · rename_i h
    refine IAM.loop (TasksAM.cons (bfly_am _ _ _ _) (TasksAM.nil (n := 0)) ?_)
    subst h; omega
  · rename_i h
    refine IAM.loop ((TasksAM.tasks1 fun i _ => bfly_am _ _ _ _).mono (le_of_eq ?_))
    have := cnt_dvd (L := 2) (by omega) (show 2 ∣ s by tauto)
    calc cnt s 2 * ((r + 0 + r) * 2) = (cnt s 2 * 2) * (2 * r) := by ring
      _ = 2 * (r * s) := by rw [this]; ring

end stockham

theorem endAny_am {inv : Bool} {kind : LoopKind} {mode : ScaleMode} {n s : ℕ} {src dst : Ptr} (hs : s = 1 ∨ 2 ∣ s) :
    IAM (endAny C inv kind mode n s src dst) (2 * (n * s)) := by
  unfold endAny
  split
  · rename_i h; subst h; exact endKern_am _ _ hs
  split
  · rename_i h; subst h; exact endKern_am _ _ hs
  split
  · rename_i h; subst h; exact endKern_am _ _ hs
  split
  · rename_i h; subst h; exact endKern_am _ _ hs
  · exact IAM.ub

/-- arithmetic of the recursion -/
theorem pow_split {q j : ℕ} (hj : q < j) : 2 ^ j / 2 ^ q = 2 ^ (j - q) ∧ 2 ^ q ∣ 2 ^ j ∧ 2 ∣ 2 ^ (j - q) :=
  ⟨Nat.pow_div (by omega) (by omega), pow_dvd_pow 2 (by omega), dvd_pow_self 2 (by omega)⟩

theorem difFFT_am {q : ℕ} (hq : 2 ≤ q) [NeZero (2 ^ q)] {B : BF (2 ^ q)} {L : ℕ} (hL0 : 0 < L) (hL : L ∣ 4) {inv : Bool} {path : Path}
    {mode : ScaleMode} {W : Ptr} (j : ℕ) : ∀ (s : ℕ) (eo : Bool) (x y : Ptr), 1 ≤ j → (s = 1 ∨ 4 ∣ s) →
    IAM (difFFT C (2 ^ q) B L inv path mode (2 ^ j) s eo x y W) (2 * (2 ^ j * s) * j) := by
  induction j using Nat.strong_induction_on with
  | _ j ih =>
    intro s eo x y hj hs
    have h4 : 4 ∣ 2 ^ q := Nat.pow_dvd_pow 2 hq
    have h4' : 4 ≤ 2 ^ q := Nat.le_of_dvd (Nat.two_pow_pos q) h4
    have hs2 : s = 1 ∨ 2 ∣ s := hs.imp_right fun h => dvd_trans (by decide) h
    rw [difFFT.eq_def]
    split
    · exact (endAny_am hs2).mono (Nat.le_mul_of_pos_right _ hj)
    · rename_i h
      have hjq : q < j := by
        by_contra hc
        exact h (Or.inl (Nat.pow_le_pow_right (by omega) (by omega)))
      obtain ⟨e1, e2, e3⟩ := pow_split hjq
      have e4 : 2 ^ (j - q) * (2 ^ q * s) = 2 ^ j * s := by
        rw [← mul_assoc, ← pow_add, Nat.sub_add_cancel hjq.le]
      rw [e1]
      have hrec := ih (j - q) (by omega) (2 ^ q * s) (!eo) y x (by omega) (Or.inr (h4.mul_right s))
      rw [e4] at hrec
      have hcore : IAM (if s = 1 then difCore1 (2 ^ q) B inv x y W C path (2 ^ j)
          else difCoreS (2 ^ q) B inv x y W C path L (2 ^ j) s) (3 * (2 ^ j * s)) := by
        split
        · rename_i h1; subst h1; rw [Nat.mul_one]; exact difCore1_am _ _ _ _ _ _ (by omega) e2 (by rw [e1]; exact e3)
        · rename_i h1; exact difCoreS_am _ _ _ _ _ _ (by omega) e2 hL0 (hL.trans (by tauto))
      refine (hcore.append hrec).mono ?_
      generalize 2 ^ j * s = M
      obtain ⟨i, rfl⟩ : ∃ i, j = q + i := ⟨j - q, by omega⟩
      rw [Nat.add_sub_cancel_left]
      nlinarith

theorem ditFFT_am {q : ℕ} (hq : 2 ≤ q) [NeZero (2 ^ q)] {B : BF (2 ^ q)} {L : ℕ} (hL0 : 0 < L) (hL : L ∣ 4) {inv : Bool} {path : Path}
    {mode : ScaleMode} {W : Ptr} (j : ℕ) : ∀ (s : ℕ) (eo : Bool) (x y : Ptr), 1 ≤ j → (s = 1 ∨ 4 ∣ s) →
    IAM (ditFFT C (2 ^ q) B L inv path mode (2 ^ j) s eo x y W) (2 * (2 ^ j * s) * j) := by
  induction j using Nat.strong_induction_on with
  | _ j ih =>
    intro s eo x y hj hs
    have h4 : 4 ∣ 2 ^ q := Nat.pow_dvd_pow 2 hq
    have h4' : 4 ≤ 2 ^ q := Nat.le_of_dvd (Nat.two_pow_pos q) h4
    have hs2 : s = 1 ∨ 2 ∣ s := hs.imp_right fun h => dvd_trans (by decide) h
    rw [ditFFT.eq_def]
    split
    · exact (endAny_am hs2).mono (Nat.le_mul_of_pos_right _ hj)
    · rename_i h
      have hjq : q < j := by
        by_contra hc
        exact h (Or.inl (Nat.pow_le_pow_right (by omega) (by omega)))
      obtain ⟨e1, e2, e3⟩ := pow_split hjq
      have e4 : 2 ^ (j - q) * (2 ^ q * s) = 2 ^ j * s := by
        rw [← mul_assoc, ← pow_add, Nat.sub_add_cancel hjq.le]
      rw [e1]
      have hrec := ih (j - q) (by omega) (2 ^ q * s) (!eo) y x (by omega) (Or.inr (h4.mul_right s))
      rw [e4] at hrec
      have hcore : IAM (if s = 1 then ditCore1 (2 ^ q) B inv x y W C path (2 ^ j)
          else ditCoreS (2 ^ q) B inv x y W C path L (2 ^ j) s) (3 * (2 ^ j * s)) := by
        split
        · rename_i h1; subst h1; rw [Nat.mul_one]; exact ditCore1_am _ _ _ _ _ _ (by omega) e2 (by rw [e1]; exact e3)
        · rename_i h1; exact ditCoreS_am _ _ _ _ _ _ (by omega) e2 hL0 (hL.trans (by tauto))
      refine (hrec.append hcore).mono ?_
      generalize 2 ^ j * s = M
      obtain ⟨i, rfl⟩ : ∃ i, j = q + i := ⟨j - q, by omega⟩
      rw [Nat.add_sub_cancel_left]
      nlinarith

theorem stockItems_am {dit : Bool} {rad : Radix} {inv : Bool} {path : Path} {mode : ScaleMode} {k : ℕ} {x y W : Ptr} (hk : 1 ≤ k) :
    IAM (stockItems C dit rad inv path mode (2 ^ k) x y W) (2 * 2 ^ k * k) := by
  have key4 := difFFT_am (C := C) (q := 2) (B := bf4 inv) (L := 4) (by omega) (by omega) (by decide) (inv := inv) (path := path)
    (mode := mode) (W := W) k 1 false x y hk (Or.inl rfl)
  have key8 := difFFT_am (C := C) (q := 3) (B := bf8 inv) (L := 4) (by omega) (by omega) (by decide) (inv := inv) (path := path)
    (mode := mode) (W := W) k 1 false x y hk (Or.inl rfl)
  have key16 := difFFT_am (C := C) (q := 4) (B := bf16 inv) (L := 2) (by omega) (by omega) (by decide) (inv := inv) (path := path)
    (mode := mode) (W := W) k 1 false x y hk (Or.inl rfl)
  have kty4 := ditFFT_am (C := C) (q := 2) (B := bf4 inv) (L := 4) (by omega) (by omega) (by decide) (inv := inv) (path := path)
    (mode := mode) (W := W) k 1 false x y hk (Or.inl rfl)
  have kty8 := ditFFT_am (C := C) (q := 3) (B := bf8 inv) (L := 4) (by omega) (by omega) (by decide) (inv := inv) (path := path)
    (mode := mode) (W := W) k 1 false x y hk (Or.inl rfl)
  have kty16 := ditFFT_am (C := C) (q := 4) (B := bf16 inv) (L := 2) (by omega) (by omega) (by decide) (inv := inv) (path := path)
    (mode := mode) (W := W) k 1 false x y hk (Or.inl rfl)
  rw [Nat.mul_one] at key4 key8 key16 kty4 kty8 kty16
  unfold stockItems
  cases dit <;> cases rad
  · exact key4
  · exact key8
  · exact key16
  · exact kty4
  · exact kty8
  · exact kty16

/-! ### six-step and eight-step -/

theorem sixTransp_am {n k p : ℕ} {x : Ptr} : (sixTransp C n k p x).AM 16 := by
  unfold sixTransp
  split
  · exact bfly_am _ _ _ _
  · exact (bfly_am _ _ _ _).mono (by omega)

theorem sixMult_am {inv : Bool} {mode : ScaleMode} {n i p k : ℕ} {x W : Ptr} : (sixMult C inv mode n i p k x W).AM 20 := by
  unfold sixMult
  split
  · exact bfly_am _ _ _ _
  · exact (bfly_am _ _ _ _).mono (by omega)

theorem sixTranspIter_am {iv : ℕ → Option (ℕ × ℕ)} {n : ℕ} {x : Ptr} {i : ℕ} : (sixTranspIter C iv n x i).AM 16 := by
  unfold sixTranspIter
  split
  · exact sixTransp_am
  · exact .ub

theorem sixMultIter_am {iv : ℕ → Option (ℕ × ℕ)} {inv : Bool} {mode : ScaleMode} {n : ℕ} {x W : Ptr} {i : ℕ} :
    (sixMultIter C iv inv mode n x W i).AM 20 := by
  unfold sixMultIter
  split
  · exact sixMult_am
  · exact .ub

theorem sixRow_am {inv : Bool} {j : ℕ} {x y Ws : Ptr} {p : ℕ} (hj : 1 ≤ j) : (sixRow C inv (2 ^ j) x y Ws p).AM (2 * 2 ^ j * j) := by
  have key8 := difFFT_am (C := C) (q := 3) (B := bf8 inv) (L := 4) (by omega) (by omega) (by decide) (inv := inv) (path := .serial)
    (mode := .scale_1) (W := Ws) j 1 false (x + p * 2 ^ j) (y + p * 2 ^ j) hj (Or.inl rfl)
  rw [Nat.mul_one] at key8
  exact toProg_am key8.region

theorem sixL_le {j : ℕ} (hj : 2 ≤ j) : 16 * sixL (2 ^ j) ≤ 3 * (2 ^ j * 2 ^ j) := by
  unfold sixL
  obtain ⟨i, rfl⟩ : ∃ i, j = i + 2 := ⟨j - 2, by omega⟩
  have e : 2 ^ (i + 2) = 2 * (2 * 2 ^ i) := by ring
  have hp := Nat.two_pow_pos i
  rw [e, Nat.mul_div_cancel_left _ (by omega)]
  generalize 2 ^ i = m at *
  have : 2 * m * (2 * m + 1) / 2 = m * (2 * m + 1) := by
    rw [mul_assoc, Nat.mul_div_cancel_left _ (by omega)]
  rw [this]
  nlinarith

theorem sixPart_am {iv : ℕ → Option (ℕ × ℕ)} {kind : LoopKind} {inv : Bool} {mode : ScaleMode} {j : ℕ} {x y W Ws : Ptr}
    (hj : 2 ≤ j) : IAM (sixPart C iv kind inv mode (2 ^ j) x y W Ws) ((4 * j + 10) * (2 ^ j * 2 ^ j)) := by
  unfold sixPart
  have ht : IAM (Items.loop kind (tasks1 (sixL (2 ^ j)) (sixTranspIter C iv (2 ^ j) x))) (sixL (2 ^ j) * 16) :=
    IAM.loop (TasksAM.tasks1 fun i _ => sixTranspIter_am)
  have hm : IAM (Items.loop kind (tasks1 (sixL (2 ^ j)) (sixMultIter C iv inv mode (2 ^ j) x W))) (sixL (2 ^ j) * 20) :=
    IAM.loop (TasksAM.tasks1 fun i _ => sixMultIter_am)
  have hr : IAM (Items.loop kind (tasks1 (2 ^ j) (sixRow C inv (2 ^ j) x y Ws))) (2 ^ j * (2 * 2 ^ j * j)) :=
    IAM.loop (TasksAM.tasks1 fun i _ => sixRow_am (by omega))
  refine (ht.append (hr.append (hm.append (hr.append ht)))).mono ?_
  have := sixL_le hj
  generalize 2 ^ j = m at *
  nlinarith

theorem sixFFT_am {thr : Thr} {iv : ℕ → Option (ℕ × ℕ)} {inv : Bool} {mode : ScaleMode} {j : ℕ} {x y W Ws : Ptr} (hj : 2 ≤ j) :
    TasksAM (sixFFT C thr iv inv mode (2 ^ j) x y W Ws).flatten ((4 * j + 10) * (2 ^ j * 2 ^ j)) :=
  (sixPart_am hj).region

theorem eightFFT_am {thr : Thr} {iv : ℕ → Option (ℕ × ℕ)} {inv : Bool} {mode : ScaleMode} {j : ℕ} {x y W Wm Ws : Ptr} (hj : 2 ≤ j) :
    TasksAM (eightFFT C thr iv inv mode (2 ^ j) x y W Wm Ws).flatten ((4 * j + 15) * (8 * (2 ^ j * 2 ^ j))) := by
  have h2 : 2 ∣ 2 ^ j * 2 ^ j := (dvd_pow_self 2 (by omega)).mul_right _
  have hc := cnt_dvd (L := 2) (by omega) h2
  have hpre : ∀ N, TasksAM (tasks1 (cnt (2 ^ j * 2 ^ j) 2) (eightPre C inv mode N x y W)) (17 * (2 ^ j * 2 ^ j)) := fun N =>
    (TasksAM.tasks1 fun i _ => bfly_am _ _ _ _).mono (by omega)
  have hpost : ∀ N, TasksAM (tasks1 (cnt (2 ^ j * 2 ^ j) 2) (eightTransp C N y x)) (16 * (2 ^ j * 2 ^ j)) := fun N =>
    (TasksAM.tasks1 fun i _ => bfly_am _ _ _ _).mono (by omega)
  have hsub : ∀ i : ℕ, TasksAM (Items.region (sixPart C iv .serial inv .scale_1 (2 ^ j) (y + i * (2 ^ j * 2 ^ j)) (x + i * (2 ^ j * 2 ^ j)) Wm Ws)).flatten
      ((4 * j + 10) * (2 ^ j * 2 ^ j)) := fun i => (sixPart_am hj).region
  unfold eightFFT
  simp only
  split
  · rw [List.flatten_append, List.flatten_append, loop_flatten, loop_flatten]
    have h8 : TasksAM ((List.range 8).flatMap fun i => Items.region (sixPart C iv .serial inv .scale_1 (2 ^ j)
        (y + i * (2 ^ j * 2 ^ j)) (x + i * (2 ^ j * 2 ^ j)) Wm Ws)).flatten (8 * ((4 * j + 10) * (2 ^ j * 2 ^ j))) := by
      have := TasksAM.flatMap (l := List.range 8) (f := fun i => (Items.region (sixPart C iv .serial inv .scale_1 (2 ^ j)
        (y + i * (2 ^ j * 2 ^ j)) (x + i * (2 ^ j * 2 ^ j)) Wm Ws)).flatten) (a := (4 * j + 10) * (2 ^ j * 2 ^ j)) fun i _ => hsub i
      rw [List.length_range] at this
      rwa [List.flatMap, List.flatten_flatten, List.map_map]
    refine ((hpre _).append (h8.append (hpost _))).mono ?_
    generalize 2 ^ j * 2 ^ j = m
    nlinarith
  · rw [region_flatten]
    have h8 : TasksAM (tasks1 8 fun i => (Items.region (sixPart C iv .serial inv .scale_1 (2 ^ j)
        (y + i * (2 ^ j * 2 ^ j)) (x + i * (2 ^ j * 2 ^ j)) Wm Ws)).toProg) (8 * ((4 * j + 10) * (2 ^ j * 2 ^ j))) :=
      TasksAM.tasks1 fun i _ => toProg_am (hsub i)
    refine TasksAM.mono ((IAM.loop (hpre _)).append ((IAM.loop h8).append (IAM.loop (hpost _)))) ?_
    generalize 2 ^ j * 2 ^ j = m
    nlinarith

/-- a six-step transform; the first bound is for the short lengths, which it hands to the radix-8 kernels -/
theorem sixRun_am {thr : Thr} {inv : Bool} {mode : ScaleMode} {k : ℕ} {x y W Wm Ws : Ptr} :
    TasksAM (sixRun C thr inv mode k x y W Wm Ws).flatten (2 ^ k * (if k ≤ 5 then 2 * k else 2 * k + 10)) := by
  unfold sixRun
  split
  · exact .nil
  rename_i h0
  split
  · have key8 := difFFT_am (C := C) (q := 3) (B := bf8 inv) (L := 4) (by omega) (by omega) (by decide) (inv := inv) (path := .serial)
      (mode := mode) (W := W) k 1 false x y (by omega) (Or.inl rfl)
    rw [Nat.mul_one] at key8
    exact key8.region.mono (le_of_eq (by ring))
  split
  · rename_i h5 hodd
    obtain ⟨j, rfl⟩ : ∃ j, k = 2 * j + 3 := ⟨k / 2 - 1, by omega⟩
    rw [show (2 * j + 3) / 2 - 1 = j by omega]
    refine (eightFFT_am (by omega)).mono ?_
    rw [show 2 * j + 3 = j + j + 3 by ring, pow_add, pow_add]
    generalize 2 ^ j * 2 ^ j = m
    nlinarith
  · rename_i h5 heven
    obtain ⟨j, rfl⟩ : ∃ j, k = 2 * j := ⟨k / 2, by omega⟩
    rw [show 2 * j / 2 = j by omega]
    refine (sixFFT_am (by omega)).mono (le_of_eq ?_)
    rw [two_mul j, pow_add]
    ring

theorem stockRun_am {thr : Thr} {dit : Bool} {rad : Radix} {inv : Bool} {mode : ScaleMode} {k : ℕ} {x y W : Ptr} :
    TasksAM (stockRun C thr dit rad inv mode k x y W).flatten (2 * 2 ^ k * k) := by
  unfold stockRun
  split
  · exact .nil
  · exact (stockItems_am (by omega)).region

end OTFFT
