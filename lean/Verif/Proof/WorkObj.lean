/-
Work of the member functions of the classes.
-/
import Verif.Proof.WorkMixed
import Verif.Proof.BlueObj
import Verif.Proof.DCTObj
import Verif.Proof.Engine

namespace OTFFT

set_option linter.unusedSectionVars false

variable {F C : Type} [DArith F] [CArith F C] {thr : Thr}

/-! ### Transforms -/

theorem Algo.transform_am {o : Algo} {n : ℕ} {h : Heap C} (hr : o.Ready C thr n h) {inv : Bool} {mode : ScaleMode} {x y : Ptr} :
    TasksAM (o.transform C thr inv mode x y).flatten (n * (3 * sumFactors n + 2)) := by
  unfold Algo.Ready at hr
  unfold Algo.transform
  split at hr <;> rename_i hk <;> simp only [hk]
  · obtain ⟨rfl, -⟩ := hr
    refine stockRun_am.mono ?_
    rw [sumFactors_pow]
    have := Nat.two_pow_pos o.logN
    nlinarith
  · obtain ⟨rfl, -⟩ := hr
    refine sixRun_am.mono (Nat.mul_le_mul_left _ ?_)
    rw [sumFactors_pow]
    split <;> omega
  · obtain ⟨rfl, -⟩ := hr
    exact mixRun_am

theorem Algo.transform_pow_am {o : Algo} {k : ℕ} {h : Heap C} (hr : o.Ready C thr (2 ^ k) h) {inv : Bool} {mode : ScaleMode} {x y : Ptr} :
    TasksAM (o.transform C thr inv mode x y).flatten (2 * 2 ^ k * (k + 5)) := by
  unfold Algo.Ready at hr
  unfold Algo.transform
  split at hr <;> rename_i hk <;> simp only [hk]
  · obtain ⟨he, -⟩ := hr
    rw [← Nat.pow_right_injective (le_refl 2) he]
    exact stockRun_am.mono (Nat.mul_le_mul_left _ (by omega))
  · obtain ⟨he, -⟩ := hr
    rw [← Nat.pow_right_injective (le_refl 2) he]
    refine sixRun_am.mono ?_
    rw [show 2 * 2 ^ k * (k + 5) = 2 ^ k * (2 * k + 10) by ring]
    refine Nat.mul_le_mul_left _ ?_
    split <;> omega
  · rw [hr.1]
    exact mixRun_pow_am

theorem FFT0.call_am {o : FFT0} {n : ℕ} {h : Heap C} (hr : o.Ready C thr n h) {e : Entry} {x y : Ptr} :
    TasksAM (o.call C thr e x y).flatten (n * (3 * sumFactors n + 2)) := by
  rw [FFT0.call_eq]
  unfold FFT0.obj_call
  have := hr.obj
  split at this
  · rw [this]
    exact (TasksAM.cons (a := 0) (b := 0) (n := 0) .ub .nil le_rfl).mono (Nat.zero_le _)
  · obtain ⟨a, ha, -, -, hra⟩ := this
    rw [ha]
    exact Algo.transform_am hra

theorem FFT0.call_pow_am {o : FFT0} {k : ℕ} {h : Heap C} (hr : o.Ready C thr (2 ^ k) h) {e : Entry} {x y : Ptr} :
    TasksAM (o.call C thr e x y).flatten (2 * 2 ^ k * (k + 5)) := by
  rw [FFT0.call_eq]
  unfold FFT0.obj_call
  have := hr.obj
  split at this
  · rw [this]
    exact (TasksAM.cons (a := 0) (b := 0) (n := 0) .ub .nil le_rfl).mono (Nat.zero_le _)
  · obtain ⟨a, ha, -, -, hra⟩ := this
    rw [ha]
    exact Algo.transform_pow_am hra

/-- a loop over `n` iterations of at most `a` accesses each -/
theorem loop_am {C : Type} {par : Bool} {n a : ℕ} {f : ℕ → Task C} (h : ∀ i, (f i).AM a) :
    TasksAM (Code.loop par (tasks1 n f)).flatten (n * a) := by
  rw [loop_flatten]
  exact TasksAM.tasks1 fun i _ => h i

theorem single_am {C : Type} {t : Task C} {a : ℕ} (h : t.AM a) : TasksAM (([[t]] : Code C)).flatten a :=
  .cons h (TasksAM.nil (n := 0)) (by omega)

theorem code_append_am {C : Type} {c d : Code C} {a b : ℕ} (hc : TasksAM c.flatten a) (hd : TasksAM d.flatten b) :
    TasksAM (c ++ d).flatten (a + b) := by
  rw [List.flatten_append]; exact hc.append hd

theorem rfftPack_am {x z : Ptr} {p : ℕ} : (rfftPack C x z p).AM 3 := .load fun _ => .load fun _ => .store (.ret (n := 0))
theorem rfftEnds_am {mode : ScaleMode} {N : ℕ} {y z : Ptr} : (rfftEnds C mode N y z).AM 4 :=
  .load fun _ => .store (.load fun _ => .store (.ret (n := 0)))
theorem rfftPost_am {mode : ScaleMode} {N : ℕ} {y z U : Ptr} {k : ℕ} : (rfftPost (C := C) mode N y z U k).AM 5 :=
  .load fun _ => .load fun _ => .load fun _ => .store (.store (.ret (n := 0)))
theorem rfftMirror_am {N : ℕ} {y : Ptr} {k : ℕ} : (rfftMirror (C := C) N y k).AM 2 := .load fun _ => .store (.ret (n := 0))
theorem rfftPre_am {mode : ScaleMode} {N : ℕ} {x z U : Ptr} {k : ℕ} : (rfftPre (C := C) mode N x z U k).AM 4 :=
  .load fun _ => .load fun _ => .load fun _ => .store (.ret (n := 0))
theorem rfftUnpack_am {y z : Ptr} {p : ℕ} : (rfftUnpack C y z p).AM 3 := .load fun _ => .store (.store (.ret (n := 0)))

theorem RFFT.call_am {o : RFFT} {n : ℕ} {h : Heap C} (hr : o.Ready C thr n h) {e : Entry} {x y : Ptr} :
    TasksAM (o.call C thr e x y).flatten (n / 2 * (3 * sumFactors (n / 2) + 2) + 4 * n + 4) := by
  have hcall : ∀ {e x y}, TasksAM (o.fft.call C thr e x y).flatten (n / 2 * (3 * sumFactors (n / 2) + 2)) := fun {_ _ _} =>
    FFT0.call_am hr.fft
  generalize n / 2 * (3 * sumFactors (n / 2) + 2) = B at hcall ⊢
  have hone : TasksAM (([[.load x.loc fun a => .store y.loc (ofD C (CArith.re a)) (.ret ())]] : Code C)).flatten 2 :=
    single_am (.load fun _ => .store (.ret (n := 0)))
  have hf : ∀ mode, TasksAM (o.fwdWith C thr mode x y).flatten (B + 4 * n + 4) := by
    intro mode
    unfold RFFT.fwdWith
    simp only [hr.len]
    split
    · exact .nil
    split
    · exact hone.mono (by omega)
    · refine TasksAM.mono (code_append_am (code_append_am (code_append_am (code_append_am (loop_am fun _ => rfftPack_am) hcall)
        (single_am rfftEnds_am)) (loop_am fun _ => rfftPost_am)) (loop_am fun _ => rfftMirror_am)) ?_
      omega
  have hi : ∀ mode, TasksAM (o.invWith C thr mode x y).flatten (B + 4 * n + 4) := by
    intro mode
    unfold RFFT.invWith
    simp only [hr.len]
    split
    · exact .nil
    split
    · exact hone.mono (by omega)
    · refine TasksAM.mono (code_append_am (code_append_am (loop_am fun _ => rfftPre_am) hcall) (loop_am fun _ => rfftUnpack_am)) ?_
      omega
  cases e
  · exact hf _
  · exact hf _
  · exact hf _
  · exact hf _
  · exact hi _
  · exact hi _
  · exact hi _
  · exact hi _

theorem dctGather_am {N : ℕ} {x y : Ptr} {p : ℕ} : (dctGather (C := C) N x y p).AM 4 :=
  .load fun _ => .store (.load fun _ => .store (.ret (n := 0)))
theorem dctScatter_am {N : ℕ} {x y : Ptr} {p : ℕ} : (dctScatter (C := C) N x y p).AM 4 :=
  .load fun _ => .store (.load fun _ => .store (.ret (n := 0)))
theorem dctTwiddle_am {x z V : Ptr} {k : ℕ} : (dctTwiddle C x z V k).AM 6 :=
  .load fun _ => .load fun _ => .load fun _ => .load fun _ => .store (.store (.ret (n := 0)))
theorem dctPre_am {N : ℕ} {x z V : Ptr} {k : ℕ} : (dctPre C N x z V k).AM 4 :=
  .load fun _ => .load fun _ => .load fun _ => .store (.ret (n := 0))

theorem DCT0.call_am {o : DCT0} {n : ℕ} {h : Heap C} (hr : o.Ready C thr n h) {e : DctEntry} {x y z : Ptr} :
    TasksAM (o.call C thr e x y z).flatten (n / 2 * (3 * sumFactors (n / 2) + 2) + 10 * n + 7) := by
  have hcall : ∀ {e x y}, TasksAM (o.rfft.call C thr e x y).flatten (n / 2 * (3 * sumFactors (n / 2) + 2) + 4 * n + 4) := fun {_ _ _} =>
    RFFT.call_am hr.rfft
  generalize n / 2 * (3 * sumFactors (n / 2) + 2) = B at hcall ⊢
  have hf : ∀ e, TasksAM (o.fwdWith C thr e x y z).flatten (B + 10 * n + 7) := by
    intro e
    unfold DCT0.fwdWith
    simp only [hr.len]
    split
    · exact .nil
    · refine TasksAM.mono (code_append_am (code_append_am (loop_am fun _ => dctGather_am) hcall) (loop_am fun _ => dctTwiddle_am)) ?_
      unfold cnt
      omega
  have hi : ∀ e, TasksAM (o.invWith C thr e x y z).flatten (B + 10 * n + 7) := by
    intro e
    unfold DCT0.invWith
    simp only [hr.len]
    split
    · exact .nil
    · refine TasksAM.mono (code_append_am (code_append_am (code_append_am (single_am (a := 2) (.load fun _ => .store (.ret (n := 0))))
        (loop_am fun _ => dctPre_am)) hcall) (loop_am fun _ => dctScatter_am)) ?_
      omega
  cases e
  · exact hf _
  · exact hf _
  · exact hf _
  · exact hi _
  · exact hi _
  · exact hi _

theorem blueInit0_am {x a b : Ptr} : (blueInit0 C x a b).AM 5 :=
  .load fun _ => .store (.store (.load fun _ => .store (.ret (n := 0))))
theorem blueZero_am {a b : Ptr} {p : ℕ} : (blueZero C a b p).AM 3 := .store (.load fun _ => .store (.ret (n := 0)))
theorem blueChirp_am {N L : ℕ} {inv : Bool} {x a b W : Ptr} {p : ℕ} : (blueChirp (C := C) N L inv x a b W p).AM 9 := by
  unfold blueChirp
  split
  · exact .ub
  · exact .load fun _ => .load fun _ => .store (.load fun _ => .store (.load fun _ => .store (.load fun _ => .store (.ret (n := 0)))))
theorem blueMul_am {a b : Ptr} {k : ℕ} : (blueMul (C := C) a b k).AM 3 := .load fun _ => .load fun _ => .store (.ret (n := 0))
theorem blueOut_am {mode : ScaleMode} {N : ℕ} {x a : Ptr} {p : ℕ} : (blueOut (C := C) mode N x a p).AM 3 :=
  .load fun _ => .load fun _ => .store (.ret (n := 0))

/-- the padded length -/
theorem blueLoop_le {n L : ℕ} (hn : 1 ≤ n) (h : blueLoop (2 * n) 0 = some L) : L < 4 * n ∧ ∃ m, L = 2 ^ m ∧ m ≤ Nat.log 2 n + 2 := by
  obtain ⟨j, -, rfl, -, hmin⟩ := blueLoop_spec _ _ _ h
  rcases Nat.eq_zero_or_pos j with rfl | hj
  · exact ⟨by omega, 0, rfl, by omega⟩
  · have h1 := hmin (j - 1) (by omega) (by omega)
    obtain ⟨i, rfl⟩ : ∃ i, j = i + 1 := ⟨j - 1, by omega⟩
    rw [Nat.add_sub_cancel] at h1
    refine ⟨by rw [pow_succ]; omega, i + 1, rfl, ?_⟩
    rcases Nat.lt_or_ge i 2 with hi | hi
    · omega
    · obtain ⟨l, rfl⟩ : ∃ l, i = l + 1 := ⟨i - 1, by omega⟩
      rw [pow_succ] at h1
      have := Nat.le_log_of_pow_le (b := 2) (by omega) (show 2 ^ l ≤ n by omega)
      omega

theorem Bluestein.call_am {o : Bluestein} {n : ℕ} {h : Heap C} (hn : 1 ≤ n) (hr : o.Ready C thr n h) {e : Entry} {x : Ptr} :
    TasksAM (o.call C thr e x).flatten (12 * n * (2 * Nat.log 2 n + 17)) := by
  have hr := hr hn
  obtain ⟨hL, m, hm, hml⟩ := blueLoop_le hn hr.pad
  have hfr := hr.fft.fft
  rw [hm] at hfr
  have hcall : ∀ {e x}, TasksAM (o.fft.call C thr e x).flatten (2 * o.L * (m + 5)) := fun {_ _} => by
    rw [hm]; exact FFT0.call_pow_am hfr
  have hrun : ∀ inv mode, TasksAM (o.run C thr inv mode x).flatten (12 * n * (2 * Nat.log 2 n + 17)) := by
    intro inv mode
    unfold Bluestein.run
    simp only [hr.len]
    split
    · exact .nil
    · refine TasksAM.mono (code_append_am (code_append_am (code_append_am (code_append_am (code_append_am (code_append_am (code_append_am
        (single_am blueInit0_am) (loop_am fun _ => blueZero_am)) (loop_am fun _ => blueChirp_am)) hcall) hcall)
        (loop_am fun _ => blueMul_am)) hcall) (loop_am fun _ => blueOut_am)) ?_
      have h1 : 2 * o.L * (m + 5) ≤ 2 * (4 * n) * (Nat.log 2 n + 7) :=
        Nat.mul_le_mul (by omega) (by omega)
      have h2 : 12 * n * (2 * Nat.log 2 n + 17) = 3 * (2 * (4 * n) * (Nat.log 2 n + 7)) + 36 * n := by ring
      omega
  cases e
  · exact hrun _ _
  · exact hrun _ _
  · exact hrun _ _
  · exact hrun _ _
  · exact hrun _ _
  · exact hrun _ _
  · exact hrun _ _
  · exact hrun _ _

/-! ### Set-up -/

theorem storeTask_am {C : Type} {c : ℕ} {wr : Fin c → Ptr} {v : Fin c → C} : (storeTask wr v).AM c :=
  (bfly_am _ _ _ _).mono (by omega)

theorem initWr1_am {r N : ℕ} {W : Ptr} : TasksAM (initWr1 C thr r N W).flatten N := by
  unfold initWr1
  split
  · exact .nil
  · exact (loop_am fun _ => storeTask_am).mono (by rw [Nat.mul_one]; exact Nat.div_le_self _ _)

theorem initWt_am {r N : ℕ} {W : Ptr} : TasksAM (initWt C thr r N W).flatten (2 * N) := by
  unfold initWt
  split
  · exact .nil
  · refine (loop_am fun _ => storeTask_am).mono ?_
    calc N / r * (2 * (r - 1)) ≤ N / r * (2 * r) := Nat.mul_le_mul_left _ (by omega)
      _ = 2 * (N / r * r) := by ring
      _ ≤ 2 * N := Nat.mul_le_mul_left _ (Nat.div_mul_le_self _ _)

theorem stockhamTable_am {th r N : ℕ} {W : Ptr} : TasksAM (stockhamTable C thr th r N W).flatten (2 * N) := by
  unfold stockhamTable
  split
  · exact .nil
  split
  · exact initWt_am
  · exact initWr1_am.mono (by omega)

theorem mixTable_am {n : ℕ} {W : Ptr} : TasksAM (mixTable C thr n W).flatten (n + 1) :=
  (loop_am fun _ => storeTask_am).mono (by omega)

theorem initW8xm_am {N : ℕ} {W : Ptr} : TasksAM (initW8xm C thr N W).flatten (N / 8) :=
  (loop_am fun _ => storeTask_am).mono (by omega)

theorem initWnxn_am {n : ℕ} {W : Ptr} : TasksAM (initWnxn C thr n W).flatten (n / 2 * (n / 2 * 4)) := by
  unfold initWnxn
  refine TasksAM.mono (loop_am (a := n / 2 * 4) fun u => toProg_am ?_) le_rfl
  refine (loop_am (a := 4) fun j => ?_).mono (Nat.mul_le_mul_right _ (Nat.sub_le _ _))
  exact storeTask_am

/-- `setup` of an array followed by its table -/
theorem tabSetup_work {O : Type} {a : SArr} {n : ℤ} {fail : O × Bool} {k : ℕ → Act C (O × Bool)} {A S : ℕ}
    (hk : ∀ b, (k b).WorkAtMost A S) :
    Act.WorkAtMost ((SArr.setup C a n).bind fun r => match r with
      | none => .ret fail
      | some b => k b) A (n.toNat + S) := by
  refine ((sarr_work a n).bind (A' := A) (S' := S) fun r => ?_).mono (by omega) le_rfl
  cases r with
  | none => exact .ret
  | some b => exact hk b

theorem exec_ret {α : Type} {c : Code C} {A : ℕ} {r : α} (h : TasksAM c.flatten A) :
    Act.WorkAtMost ((Act.exec c).bind fun _ => .ret r) A 0 :=
  ((Act.WorkAtMost.exec h.code).bind (A' := 0) (S' := 0) fun _ => .ret).mono (by omega) le_rfl

theorem andThen_work {O : Type} {m : Act C (O × Bool)} {f : O → Act C (O × Bool)} {A A' S S' : ℕ} (h : m.WorkAtMost A S)
    (hf : ∀ o, (f o).WorkAtMost A' S') : (andThen m f).WorkAtMost (A + A') (S + S') := by
  refine h.bind fun r => ?_
  split
  · exact .ret
  · exact hf _

theorem stockSetup2_work {dit : Bool} {rad : Radix} {o : Algo} {k : ℕ} :
    (stockSetup2 C thr dit rad o k).WorkAtMost (2 * 2 ^ k) (2 * 2 ^ k) := by
  unfold stockSetup2
  simp only
  split
  · exact .ret
  · refine (tabSetup_work (A := 2 * 2 ^ k) (S := 0) fun b => exec_ret stockhamTable_am).mono le_rfl ?_
    rw [Int.toNat_natCast]
    unfold stockhamTabLen
    split
    · omega
    split
    · omega
    · have := Nat.div_le_self (2 ^ k) rad.num
      omega

theorem sixSetup8xm_work {o : Algo} {N : ℕ} : (sixSetup8xm C thr o N).WorkAtMost (N / 8) (N / 8) := by
  unfold sixSetup8xm
  exact (tabSetup_work (A := N / 8) (S := 0) fun b => exec_ret initW8xm_am).mono le_rfl (by simp)

theorem sixSetupNxn_work {o : Algo} {n : ℕ} :
    (sixSetupNxn C thr o n).WorkAtMost (n / 2 * (n / 2 * 4)) (n * (n + 2) / 2 + n / 2 * (n / 2 + 1) / 2) := by
  unfold sixSetupNxn
  refine (tabSetup_work (A := n / 2 * (n / 2 * 4)) (S := n / 2 * (n / 2 + 1) / 2) fun b => ?_).mono le_rfl (by rw [Int.toNat_natCast])
  exact (tabSetup_work (A := n / 2 * (n / 2 * 4)) (S := 0) fun b => exec_ret initWnxn_am).mono le_rfl (by rw [Int.toNat_natCast]; omega)

theorem sixSetupMed_work {o : Algo} {n : ℕ} :
    (sixSetupMed C thr o n).WorkAtMost (n / 2 * (n / 2 * 4)) (n * (n + 2) / 2 + n / 2 * (n / 2 + 1) / 2) := by
  unfold sixSetupMed
  refine (tabSetup_work (A := n / 2 * (n / 2 * 4)) (S := n / 2 * (n / 2 + 1) / 2) fun b => ?_).mono le_rfl (by rw [Int.toNat_natCast])
  exact (tabSetup_work (A := n / 2 * (n / 2 * 4)) (S := 0) fun b => exec_ret initWnxn_am).mono le_rfl (by rw [Int.toNat_natCast]; omega)

theorem sixSetupW_work {o : Algo} {n : ℕ} : (sixSetupW C thr o n).WorkAtMost (2 * n) (2 * n) := by
  unfold sixSetupW
  split
  · exact .ret
  · exact (tabSetup_work (A := 2 * n) (S := 0) fun b => exec_ret initWt_am).mono le_rfl (by rw [Int.toNat_natCast]; omega)

theorem sixSetupSub_work {o : Algo} {n : ℕ} : (sixSetupSub C thr o n).WorkAtMost (2 * n) (2 * n) := by
  unfold sixSetupSub
  split
  · exact .ret
  · exact (tabSetup_work (A := 2 * n) (S := 0) fun b => exec_ret initWt_am).mono le_rfl (by rw [Int.toNat_natCast]; omega)

/-- sizes of the tables of the six-step algorithm for row length `2^j` -/
theorem six_sizes {j : ℕ} (hj : 2 ≤ j) :
    2 ^ j / 2 * (2 ^ j / 2 * 4) = 2 ^ j * 2 ^ j ∧ 2 * 2 ^ j ≤ 2 ^ j * 2 ^ j ∧
    2 ^ j * (2 ^ j + 2) / 2 + 2 ^ j / 2 * (2 ^ j / 2 + 1) / 2 + 2 * 2 ^ j ≤ 2 * (2 ^ j * 2 ^ j) := by
  obtain ⟨i, rfl⟩ : ∃ i, j = i + 2 := ⟨j - 2, by omega⟩
  have e : 2 ^ (i + 2) = 2 * (2 * 2 ^ i) := by ring
  have hp := Nat.two_pow_pos i
  rw [e, Nat.mul_div_cancel_left _ (by omega)]
  generalize 2 ^ i = m at *
  have e1 : 2 * (2 * m) * (2 * (2 * m) + 2) / 2 = 2 * m * (2 * (2 * m) + 2) := by
    rw [mul_assoc 2 (2 * m), Nat.mul_div_cancel_left _ (by omega)]
  have e2 : 2 * m * (2 * m + 1) / 2 = m * (2 * m + 1) := by
    rw [mul_assoc, Nat.mul_div_cancel_left _ (by omega)]
  rw [e1, e2]
  refine ⟨by ring, by nlinarith, by nlinarith⟩

theorem sixSetup2_work {o : Algo} {k : ℕ} : (sixSetup2 C thr o k).WorkAtMost (2 * 2 ^ k) (2 * 2 ^ k) := by
  unfold sixSetup2
  simp only
  split
  · exact sixSetupW_work
  split
  · rename_i h5 hodd
    obtain ⟨j, rfl⟩ : ∃ j, k = 2 * j + 3 := ⟨k / 2 - 1, by omega⟩
    rw [show (2 * j + 3) / 2 - 1 = j by omega]
    obtain ⟨e1, e2, e3⟩ := six_sizes (j := j) (by omega)
    refine (andThen_work (andThen_work sixSetup8xm_work fun o => sixSetupMed_work) fun o => sixSetupSub_work).mono ?_ ?_ <;>
    · rw [show 2 ^ (2 * j + 3) = 8 * (2 ^ j * 2 ^ j) by ring, Nat.mul_div_cancel_left _ (by omega)]
      omega
  · rename_i h5 heven
    obtain ⟨j, rfl⟩ : ∃ j, k = 2 * j := ⟨k / 2, by omega⟩
    rw [show 2 * j / 2 = j by omega]
    obtain ⟨e1, e2, e3⟩ := six_sizes (j := j) (by omega)
    refine (andThen_work sixSetupNxn_work fun o => sixSetupSub_work).mono ?_ ?_ <;>
    · rw [show 2 ^ (2 * j) = 2 ^ j * 2 ^ j by ring]
      omega

theorem mixedSetup_work {o : Algo} {n : ℤ} : (mixedSetup C thr o n).WorkAtMost (2 * n.toNat + 1) (2 * n.toNat + 1) := by
  unfold mixedSetup
  simp only
  refine ((int_work (n + 1)).bind (A' := 2 * n.toNat + 1) (S' := 2 * n.toNat + 1) fun _ => ?_).mono (by omega) (by omega)
  refine (tabSetup_work (A := n.toNat + 1) (S := 0) fun b => exec_ret ?_).mono (by omega) (by omega)
  split
  · exact .nil
  · exact mixTable_am

theorem delete_work {o : Algo} : (o.delete C).WorkAtMost 0 0 := by
  unfold Algo.delete
  exact (release_work _).bind (A' := 0) (S' := 0) fun _ => (release_work _).bind (A' := 0) (S' := 0) fun _ =>
    (release_work _).bind (A' := 0) (S' := 0) fun _ => (release_work _).bind (A' := 0) (S' := 0) fun _ => .free .ret

theorem FFT0.reset_work {o : FFT0} : (o.reset C).WorkAtMost 0 0 := by
  unfold FFT0.reset
  split
  · exact .ret
  · exact delete_work

theorem Algo.setup_work {o : Algo} {n : ℤ} (hd : o.kind = .mixed ∨ ∃ k, logOf n.toNat = some k) :
    (o.setup C thr n (logOf n.toNat)).WorkAtMost (2 * n.toNat + 1) (2 * n.toNat + 1) := by
  unfold Algo.setup
  split
  · rename_i hk
    obtain ⟨k, hk'⟩ : ∃ k, logOf n.toNat = some k := by rcases hd with h | h; (rw [hk] at h; cases h); exact h
    rw [hk', Option.getD_some, logOf_some hk']
    exact stockSetup2_work.mono (by omega) (by omega)
  · rename_i hk
    obtain ⟨k, hk'⟩ : ∃ k, logOf n.toNat = some k := by rcases hd with h | h; (rw [hk] at h; cases h); exact h
    rw [hk', Option.getD_some, logOf_some hk']
    exact sixSetup2_work.mono (by omega) (by omega)
  · exact mixedSetup_work

theorem FFT0.setup_work {o : FFT0} {n : ℤ} : (o.setup C thr n).WorkAtMost (2 * n.toNat + 1) (2 * n.toNat + 1) := by
  unfold FFT0.setup
  refine (FFT0.reset_work.bind (A' := 2 * n.toNat + 1) (S' := 2 * n.toNat + 1) fun _ => ?_).mono (by omega) (by omega)
  simp only
  split
  · exact .ret
  · rename_i kind hd
    refine (Act.WorkAtMost.malloc (A := 2 * n.toNat + 1) (S := 2 * n.toNat + 1) fun p => ?_).mono le_rfl (by omega)
    split
    · exact .ret
    · rename_i b
      refine ((Algo.setup_work (o := Algo.fresh kind b) ?_).bind (A' := 0) (S' := 0) fun r => ?_).mono (by omega) (by omega)
      · cases hl : logOf n.toNat with
        | none =>
          left
          rw [hl] at hd
          simp only [dispatch, Option.some.injEq] at hd
          exact hd.symm
        | some k => exact Or.inr ⟨k, rfl⟩
      · split
        · exact (delete_work.bind (A' := 0) (S' := 0) fun _ => .ret).mono le_rfl le_rfl
        · exact .ret

theorem FFT.setup_work {o : FFT} {n : ℤ} : (o.setup C thr n).WorkAtMost (2 * n.toNat + 1) (3 * n.toNat + 1) := by
  unfold FFT.setup
  refine (FFT0.setup_work.bind (A' := 0) (S' := n.toNat) fun r => ?_).mono (by omega) (by omega)
  simp only
  split
  · exact .ret
  · refine ((sarr_work _ n).bind (A' := 0) (S' := 0) fun a => ?_).mono (by omega) (by omega)
    split <;> exact .ret

theorem FFT.create_work {n : ℤ} : (FFT.create C thr n).WorkAtMost (2 * n.toNat + 1) (3 * n.toNat + 1) := by
  unfold FFT.create
  refine (FFT0.setup_work.bind (A' := 0) (S' := n.toNat) fun r => ?_).mono (by omega) (by omega)
  split
  · exact .ret
  · refine ((sarr_work _ n).bind (A' := 0) (S' := 0) fun a => ?_).mono (by omega) (by omega)
    split
    · exact (FFT0.reset_work.bind (A' := 0) (S' := 0) fun _ => .ret).mono le_rfl le_rfl
    · exact .ret

theorem FFT.destroy_work {o : FFT} : (o.destroy C).WorkAtMost 0 0 :=
  (release_work _).bind (A' := 0) (S' := 0) fun _ => FFT0.reset_work

theorem FFT0.create_work {n : ℤ} : (FFT0.create C thr n).WorkAtMost (2 * n.toNat + 1) (2 * n.toNat + 1) := by
  unfold FFT0.create
  refine (FFT0.setup_work.bind (A' := 0) (S' := 0) fun r => ?_).mono (by omega) (by omega)
  split
  · exact (FFT0.reset_work.bind (A' := 0) (S' := 0) fun _ => .ret).mono le_rfl le_rfl
  · exact .ret

theorem rfftTable_am {N : ℕ} {U : Ptr} : TasksAM (rfftTable C thr N U).flatten (N + 8) := by
  unfold rfftTable
  simp only
  split
  · exact .nil
  split
  · exact (loop_am (a := 2) fun p => storeList_am _).mono (by omega)
  split
  · exact (single_am (storeList_am _)).mono (by simp)
  split
  · exact (single_am (storeList_am _)).mono (by simp)
  split
  · exact (single_am (storeList_am _)).mono (by simp)
  · exact (loop_am (a := 8) fun p => storeList_am _).mono (by omega)

theorem RFFT.setup_work {o : RFFT} {n : ℤ} : (o.setup C thr n).WorkAtMost (2 * n.toNat + 9) (2 * n.toNat + 2) := by
  unfold RFFT.setup
  simp only
  have h2 := (tdiv_two n).1
  refine (FFT0.setup_work.bind (A' := n.toNat + 8) (S' := n.toNat + 1) fun r => ?_).mono (by omega) (by omega)
  split
  · exact .ret
  · refine ((int_work (n + 1)).bind (A' := n.toNat + 8) (S' := n.toNat + 1) fun _ => ?_).mono (by omega) (by omega)
    exact (tabSetup_work (A := n.toNat + 8) (S := 0) fun b => exec_ret rfftTable_am).mono (by omega) (by omega)

theorem RFFT.destroy_work {o : RFFT} : (o.destroy C).WorkAtMost 0 0 :=
  (release_work _).bind (A' := 0) (S' := 0) fun _ => FFT0.reset_work

theorem RFFT.create_work {n : ℤ} : (RFFT.create C thr n).WorkAtMost (2 * n.toNat + 9) (2 * n.toNat + 2) := by
  unfold RFFT.create
  refine (RFFT.setup_work.bind (A' := 0) (S' := 0) fun r => ?_).mono (by omega) (by omega)
  split
  · exact (RFFT.destroy_work.bind (A' := 0) (S' := 0) fun _ => .ret).mono le_rfl le_rfl
  · exact .ret

theorem dctTable_am {N : ℕ} {V : Ptr} : TasksAM (dctTable C thr N V).flatten (N + 2) := by
  unfold dctTable
  split
  · exact .nil
  · exact (loop_am (a := 2) fun p => storeList_am _).mono (by omega)

theorem DCT0.setup_work {o : DCT0} {n : ℤ} : (o.setup C thr n).WorkAtMost (3 * n.toNat + 11) (3 * n.toNat + 3) := by
  unfold DCT0.setup
  simp only
  refine (RFFT.setup_work.bind (A' := n.toNat + 2) (S' := n.toNat + 1) fun r => ?_).mono (by omega) (by omega)
  split
  · exact .ret
  · refine ((int_work (n + 1)).bind (A' := n.toNat + 2) (S' := n.toNat + 1) fun _ => ?_).mono (by omega) (by omega)
    refine (tabSetup_work (A := n.toNat + 2) (S := 0) fun b => ?_).mono (by omega) (by omega)
    exact ((int_work (2 * n)).bind (A' := n.toNat + 2) (S' := 0) fun _ => exec_ret dctTable_am).mono (by omega) (by omega)

theorem DCT0.destroy_work {o : DCT0} : (o.destroy C).WorkAtMost 0 0 :=
  (release_work _).bind (A' := 0) (S' := 0) fun _ => RFFT.destroy_work

theorem DCT0.create_work {n : ℤ} : (DCT0.create C thr n).WorkAtMost (3 * n.toNat + 11) (3 * n.toNat + 3) := by
  unfold DCT0.create
  refine (DCT0.setup_work.bind (A' := 0) (S' := 0) fun r => ?_).mono (by omega) (by omega)
  split
  · exact ((release_work _).bind (A' := 0) (S' := 0) fun _ => (RFFT.destroy_work.bind (A' := 0) (S' := 0) fun _ => .ret)).mono le_rfl le_rfl
  · exact .ret

theorem DCT.setup_work {o : DCT} {n : ℤ} : (o.setup C thr n).WorkAtMost (3 * n.toNat + 11) (5 * n.toNat + 3) := by
  unfold DCT.setup
  simp only
  refine (DCT0.setup_work.bind (A' := 0) (S' := 2 * n.toNat) fun r => ?_).mono (by omega) (by omega)
  split
  · exact .ret
  · refine (tabSetup_work (A := 0) (S := n.toNat) fun b => ?_).mono (by omega) (by omega)
    exact (tabSetup_work (A := 0) (S := 0) fun b => .ret).mono (by omega) (by omega)

theorem DCT.destroy_work {o : DCT} : (o.destroy C).WorkAtMost 0 0 :=
  (release_work _).bind (A' := 0) (S' := 0) fun _ => (release_work _).bind (A' := 0) (S' := 0) fun _ => DCT0.destroy_work

theorem DCT.create_work {n : ℤ} : (DCT.create C thr n).WorkAtMost (3 * n.toNat + 11) (5 * n.toNat + 3) := by
  unfold DCT.create
  refine (DCT.setup_work.bind (A' := 0) (S' := 0) fun r => ?_).mono (by omega) (by omega)
  split
  · exact ((release_work _).bind (A' := 0) (S' := 0) fun _ => (release_work _).bind (A' := 0) (S' := 0) fun _ =>
      (DCT0.destroy_work.bind (A' := 0) (S' := 0) fun _ => .ret)).mono le_rfl le_rfl
  · exact .ret

theorem blueTable_am {N : ℕ} {W : Ptr} : TasksAM (blueTable C thr N W).flatten (3 + (N - 1) * 2) :=
  code_append_am (single_am (storeList_am _)) (loop_am (a := 2) fun p => storeList_am _)

theorem Bluestein.setup_work {o : Bluestein} {n : ℤ} : (o.setup C thr n).WorkAtMost (10 * n.toNat) (22 * n.toNat) := by
  unfold Bluestein.setup
  split
  · exact .ret
  rename_i hn
  have hn' : 1 ≤ n.toNat := by omega
  generalize n.toNat = m at *
  unfold Bluestein.setupPos
  split
  · exact (Act.WorkAtMost.run ub_work (Act.WorkAtMost.ret (A := 0) (S := 0))).mono (by omega) (by omega)
  split
  · exact (Act.WorkAtMost.run ub_work (Act.WorkAtMost.ret (A := 0) (S := 0))).mono (by omega) (by omega)
  rename_i L hL
  obtain ⟨h4, -, -, -⟩ := blueLoop_le hn' hL
  simp only
  refine (FFT.setup_work.bind (A' := 2 * m + 1) (S' := 2 * L + 2 * m + 1) fun r => ?_).mono (by rw [Int.toNat_natCast]; omega)
    (by rw [Int.toNat_natCast]; omega)
  split
  · exact .ret
  · refine (tabSetup_work (A := 2 * m + 1) (S := L + 2 * m + 1) fun b => ?_).mono (by omega) (by rw [Int.toNat_natCast]; omega)
    refine (tabSetup_work (A := 2 * m + 1) (S := 2 * m + 1) fun b => ?_).mono (by omega) (by rw [Int.toNat_natCast]; omega)
    refine (tabSetup_work (A := 2 * m + 1) (S := 0) fun b => exec_ret ?_).mono (by omega) (by rw [Int.toNat_natCast])
    exact blueTable_am.mono (by omega)

theorem Bluestein.destroy_work {o : Bluestein} : (o.destroy C).WorkAtMost 0 0 :=
  (release_work _).bind (A' := 0) (S' := 0) fun _ => (release_work _).bind (A' := 0) (S' := 0) fun _ =>
    (release_work _).bind (A' := 0) (S' := 0) fun _ => FFT.destroy_work

theorem Bluestein.create_work {n : ℤ} : (Bluestein.create C thr n).WorkAtMost (10 * n.toNat) (22 * n.toNat) := by
  unfold Bluestein.create
  refine (Bluestein.setup_work.bind (A' := 0) (S' := 0) fun r => ?_).mono (by omega) (by omega)
  split
  · exact ((release_work _).bind (A' := 0) (S' := 0) fun _ => (release_work _).bind (A' := 0) (S' := 0) fun _ =>
      (release_work _).bind (A' := 0) (S' := 0) fun _ => (FFT.destroy_work.bind (A' := 0) (S' := 0) fun _ => .ret)).mono le_rfl le_rfl
  · exact .ret

end OTFFT
