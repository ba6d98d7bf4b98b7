/-
Work of the mixed-radix transform.
-/
import Verif.Proof.WorkAlgo
import Verif.Proof.Overflow
import Mathlib.Data.Nat.Factors
import Mathlib.Algebra.BigOperators.Group.List.Basic

namespace OTFFT

set_option linter.unusedSectionVars false

variable {F C : Type} [DArith F] [CArith F C]

theorem sumFactors_mul {a b : ℕ} (ha : a ≠ 0) (hb : b ≠ 0) : sumFactors (a * b) = sumFactors a + sumFactors b := by
  unfold sumFactors
  rw [(Nat.perm_primeFactorsList_mul ha hb).sum_eq, List.sum_append]

theorem sumFactors_prime {p : ℕ} (hp : p.Prime) : sumFactors p = p := by
  unfold sumFactors
  rw [Nat.primeFactorsList_prime hp]
  simp

theorem sumFactors_two : sumFactors 2 = 2 := sumFactors_prime Nat.prime_two
theorem sumFactors_pow (k : ℕ) : sumFactors (2 ^ k) = 2 * k := by
  induction k with
  | zero => simp [sumFactors]
  | succ k ih => rw [pow_succ, sumFactors_mul (by positivity) (by omega), ih, sumFactors_two]; ring
theorem sumFactors_four : sumFactors 4 = 4 := sumFactors_pow 2
theorem sumFactors_eight : sumFactors 8 = 6 := sumFactors_pow 3
theorem sumFactors_three : sumFactors 3 = 3 := sumFactors_prime Nat.prime_three
theorem sumFactors_five : sumFactors 5 = 5 := sumFactors_prime Nat.prime_five

theorem sumFactors_div {r n : ℕ} (hr : r ∣ n) (hn : n ≠ 0) : sumFactors n = sumFactors r + sumFactors (n / r) := by
  obtain ⟨m, rfl⟩ := hr
  have h0 : r ≠ 0 := by rintro rfl; simp at hn
  have h1 : m ≠ 0 := by rintro rfl; simp at hn
  rw [Nat.mul_div_cancel_left _ (by omega), sumFactors_mul h0 h1]

theorem mixCore_am {r b : ℕ} {S : BFT r b} {L : ℕ} {tw : ℕ → Fin b → ℕ} {path : Path} {n s : ℕ} {x y W : Ptr}
    (hb : b ≤ r) (hr : 0 < r) (hn : r ∣ n) (hL : 0 < L) (hs : L ∣ s) :
    IAM (mixCore C S L tw path n s x y W) (3 * (n * s)) := by
  cases path
  · simp only [mixCore]
    refine IAM.loop ((TasksAM.tasks2 (a := (r + b + r) * L) ?_).mono ?_)
    · intro p i _ _
      exact bfly_am _ _ _ _
    · obtain ⟨m, rfl⟩ := hn
      rw [Nat.mul_div_cancel_left _ hr]
      calc m * cnt s L * ((r + b + r) * L) = m * (cnt s L * L) * (r + b + r) := by ring
        _ = m * s * (r + b + r) := by rw [cnt_dvd hL hs]
        _ ≤ m * s * (3 * r) := Nat.mul_le_mul_left _ (by omega)
        _ = 3 * (r * m * s) := by ring
  · simp only [mixCore]
    refine IAM.loop ((TasksAM.tasks1 (a := (r + b + r) * L) ?_).mono ?_)
    · intro i _
      exact bfly_am _ _ _ _
    · calc n * s / (r * L) * ((r + b + r) * L) ≤ n * s / (r * L) * (3 * (r * L)) := Nat.mul_le_mul_left _ (by nlinarith)
        _ = 3 * (n * s / (r * L) * (r * L)) := by ring
        _ ≤ 3 * (n * s) := Nat.mul_le_mul_left _ (Nat.div_mul_le_self _ _)

theorem mixEnd_am {r b : ℕ} {S : BFT r b} {L : ℕ} {tw : Fin b → ℕ} {path : Path} {single : Bool} {s : ℕ} {x z W : Ptr}
    (hL : 0 < L) (hs : L ∣ s) : IAM (mixEnd C S L tw path single s x z W) ((2 * r + b) * s) := by
  simp only [mixEnd]
  refine IAM.loop ((TasksAM.tasks1 (a := (r + b + r) * L) ?_).mono (le_of_eq ?_))
  · intro i _
    exact bfly_am _ _ _ _
  · calc cnt s L * ((r + b + r) * L) = (cnt s L * L) * (2 * r + b) := by ring
      _ = (2 * r + b) * s := by rw [cnt_dvd hL hs]; ring

theorem anyInner_am {k i m : ℕ} {xa wa : ℕ → Ptr} : (js : List ℕ) → (z : C) → (κ : C → Task C) → (∀ z, (κ z).AM m) →
    (anyInner C k i xa wa js z κ).AM (2 * js.length + m)
  | [], z, κ, hκ => by rw [anyInner]; exact (hκ z).mono (Nat.le_add_left _ _)
  | j :: js, z, κ, hκ => by
    rw [anyInner, List.length_cons, show 2 * (js.length + 1) + m = 2 * js.length + m + 1 + 1 by ring]
    refine .load fun a => ?_
    split
    · exact .load fun w => anyInner_am js _ _ hκ
    · exact .ub

theorem anyBody_none_am {k : ℕ} {xa wa ya : ℕ → Ptr} : (is : List ℕ) →
    (anyBody C k xa wa none ya is).AM (is.length * (2 * k + 1))
  | [] => .ret
  | i :: is => by
    have := anyInner_am (C := C) (k := k) (i := i) (m := is.length * (2 * k + 1) + 1) (xa := xa) (wa := wa) (List.range k)
      (CArith.cmk (fofNat 0) (fofNat 0)) (fun z => .store (ya i).loc z (anyBody C k xa wa none ya is))
      (fun z => .store (anyBody_none_am is))
    rw [List.length_range] at this
    rw [List.length_cons, show (is.length + 1) * (2 * k + 1) = 2 * k + (is.length * (2 * k + 1) + 1) by ring]
    exact this

theorem anyBody_some_am {k : ℕ} {xa wa ya w : ℕ → Ptr} : (is : List ℕ) →
    (anyBody C k xa wa (some w) ya is).AM (is.length * (2 * k + 2))
  | [] => .ret
  | i :: is => by
    have := anyInner_am (C := C) (k := k) (i := i) (m := is.length * (2 * k + 2) + 1 + 1) (xa := xa) (wa := wa) (List.range k)
      (CArith.cmk (fofNat 0) (fofNat 0)) (fun z => .load (w i).loc fun t => .store (ya i).loc (mulpz z t) (anyBody C k xa wa (some w) ya is))
      (fun z => .load fun t => .store (anyBody_some_am is))
    rw [List.length_range] at this
    rw [List.length_cons, show (is.length + 1) * (2 * k + 2) = 2 * k + (is.length * (2 * k + 2) + 1 + 1) by ring]
    exact this

theorem copyTasks_am {N : ℕ} {x y : Ptr} : TasksAM (copyTasks C N x y) (2 * N) := by
  refine (TasksAM.tasks1 (a := (1 + 0 + 1) * 1) ?_).mono (by omega)
  intro i _
  exact bfly_am _ _ _ _

/-- stages of general radix -/
theorem mixAny_am {inv : Bool} {path : Path} {W : Ptr} (n : ℕ) : ∀ (r s : ℕ) (eo : Bool) (x y : Ptr), 1 < n → n % 2 = 1 →
    7 ≤ r → r % 2 = 1 → r ≤ n.minFac → IAM (mixAny C inv path r n s eo x y W) (3 * sumFactors n * (n * s)) := by
  induction n using Nat.strong_induction_on with
  | _ n ih =>
    intro r s eo x y hn hodd hr hro hrm
    rw [mixAny.eq_def]
    simp only
    split
    · exact IAM.ub
    · rename_i k hk
      have hkm := findK_some n hn hodd _ r k rfl (by omega) hro hrm hk
      have hpr : k.Prime := hkm ▸ Nat.minFac_prime (by omega)
      have hkn : k ∣ n := hkm ▸ Nat.minFac_dvd n
      have hk7 : 7 ≤ k := by omega
      have hsum := sumFactors_div hkn (by omega)
      rw [sumFactors_prime hpr] at hsum
      split
      · rename_i he
        have h1 : TasksAM (tasks1 s fun q => anyBody C k (fun j => x + (q + s * j)) (fun a => W + mixIdx inv (n * s) (s * a)) none
            (fun i => y + (q + s * i)) (List.range k)) (s * (k * (2 * k + 1))) := by
          refine TasksAM.tasks1 ?_
          intro q _
          have := anyBody_none_am (C := C) (k := k) (xa := fun j => x + (q + s * j)) (wa := fun a => W + mixIdx inv (n * s) (s * a))
            (ya := fun i => y + (q + s * i)) (List.range k)
          rwa [List.length_range] at this
        have h2 : IAM (if eo = true then [] else Items.loop (kindNowait path) (copyTasks C (n * s) x y)) (2 * (n * s)) := by
          split
          · exact IAM.nil
          · exact IAM.loop copyTasks_am
        refine ((IAM.loop h1).append h2).mono ?_
        rw [hsum, ← he]
        have : 2 * k + 3 ≤ 3 * (k + sumFactors (k / k)) := by omega
        calc s * (k * (2 * k + 1)) + 2 * (k * s) = (2 * k + 3) * (k * s) := by ring
          _ ≤ _ := Nat.mul_le_mul_right _ this
      · rename_i he
        split
        · exact IAM.ub
        · have hmn : n / k * (k * s) = n * s := by rw [← mul_assoc, Nat.div_mul_cancel hkn]
          have hm1 : 1 < n / k := by
            obtain ⟨m, rfl⟩ := hkn
            rw [Nat.mul_div_cancel_left _ (by omega)]
            rcases Nat.lt_or_ge 1 m with h | h
            · exact h
            · interval_cases m <;> omega
          have hmo : (n / k) % 2 = 1 := by
            by_contra hc
            have h2 : 2 ∣ n / k := by omega
            have : 2 ∣ n := h2.trans (Nat.div_dvd_of_dvd hkn)
            omega
          have hko : k % 2 = 1 := by
            by_contra hc
            have h2 : 2 ∣ k := by omega
            have : 2 ∣ n := h2.trans hkn
            omega
          have hkm' : k ≤ (n / k).minFac := by
            have : n.minFac ≤ (n / k).minFac :=
              Nat.minFac_le_of_dvd (Nat.minFac_prime (by omega)).two_le ((Nat.minFac_dvd _).trans (Nat.div_dvd_of_dvd hkn))
            omega
          have hrec := ih (n / k) (Nat.div_lt_self (by omega) (by omega)) k (k * s) (!eo) y x hm1 hmo hk7 hko hkm'
          rw [hmn] at hrec
          have hb : ∀ p q : ℕ, (anyBody C k (fun j => x + (q + s * p + n / k * s * j)) (fun a => W + mixIdx inv (n * s) (n / k * s * a))
              (some fun i => W + mixIdx inv (n * s) (i * (s * p))) (fun i => y + (q + s * p * k + s * i)) (List.range k)).AM
              (k * (2 * k + 2)) := by
            intro p q
            have := anyBody_some_am (C := C) (k := k) (xa := fun j => x + (q + s * p + n / k * s * j))
              (wa := fun a => W + mixIdx inv (n * s) (n / k * s * a)) (w := fun i => W + mixIdx inv (n * s) (i * (s * p)))
              (ya := fun i => y + (q + s * p * k + s * i)) (List.range k)
            rwa [List.length_range] at this
          have hfin : n / k * s * (k * (2 * k + 2)) + 3 * sumFactors (n / k) * (n * s) ≤ 3 * sumFactors n * (n * s) := by
            rw [hsum]
            calc n / k * s * (k * (2 * k + 2)) + 3 * sumFactors (n / k) * (n * s)
                = (2 * k + 2) * (n / k * (k * s)) + 3 * sumFactors (n / k) * (n * s) := by ring
              _ = (2 * k + 2 + 3 * sumFactors (n / k)) * (n * s) := by rw [hmn]; ring
              _ ≤ 3 * (k + sumFactors (n / k)) * (n * s) := Nat.mul_le_mul_right _ (by omega)
          refine IAM.mono (IAM.append (n := n / k * s * (k * (2 * k + 2))) ?_ hrec) hfin
          cases path
          · refine IAM.loop (TasksAM.tasks2 ?_)
            intro p i _ _
            exact hb p i
          · refine IAM.loop (TasksAM.tasks1 ?_)
            intro i _
            exact hb _ _

theorem div_ge_two {r n : ℕ} (hr : 0 < r) (h : n % r = 0) (hn : n ≠ 0) (hne : n ≠ r) : 2 ≤ n / r := by
  obtain ⟨m, rfl⟩ := Nat.dvd_of_mod_eq_zero h
  rw [Nat.mul_div_cancel_left _ hr]
  rcases Nat.lt_or_ge 1 m with h | h
  · exact h
  · interval_cases m <;> omega

theorem mixFFT_am {inv : Bool} {path : Path} {W : Ptr} (n : ℕ) : ∀ (s : ℕ) (eo : Bool) (x y : Ptr), 1 < n →
    (n % 2 = 0 → s = 1 ∨ 2 ∣ s) → IAM (mixFFT C inv path n s eo x y W) (3 * sumFactors n * (n * s)) := by
  induction n using Nat.strong_induction_on with
  | _ n ih =>
    intro s eo x y hn hs
    rw [mixFFT.eq_def]
    simp only
    split
    · exact IAM.nil
    have hrec : ∀ r, 1 < r → n % r = 0 → n ≠ r → 1 ≤ sumFactors r → (n / r % 2 = 0 → 2 ∣ r * s) → ∀ I : Items C, IAM I (3 * (n * s)) →
        IAM (I ++ mixFFT C inv path (n / r) (r * s) (!eo) y x W) (3 * sumFactors n * (n * s)) := by
      intro r hr hd hne hS hev I hI
      have hdv := Nat.dvd_of_mod_eq_zero hd
      have h2 := div_ge_two (by omega) hd (by omega) hne
      have hmn : n / r * (r * s) = n * s := by rw [← mul_assoc, Nat.div_mul_cancel hdv]
      have := ih (n / r) (Nat.div_lt_self (by omega) hr) (r * s) (!eo) y x (by omega) (fun h => Or.inr (hev h))
      rw [hmn] at this
      refine (hI.append this).mono ?_
      rw [sumFactors_div hdv (by omega)]
      calc 3 * (n * s) + 3 * sumFactors (n / r) * (n * s) = (3 * (1 + sumFactors (n / r))) * (n * s) := by ring
        _ ≤ _ := Nat.mul_le_mul_right _ (by omega)
    have hend : ∀ {r b : ℕ} {S : BFT r b} {L : ℕ} {tw : Fin b → ℕ} {single : Bool} {z : Ptr}, n = r → b ≤ r → 1 ≤ sumFactors r →
        0 < L → L ∣ s → IAM (mixEnd C S L tw path single s x z W) (3 * sumFactors n * (n * s)) := by
      intro r b S L tw single z he hb hS hL hLs
      subst he
      refine (mixEnd_am hL hLs).mono ?_
      calc (2 * n + b) * s ≤ (3 * n) * s := Nat.mul_le_mul_right _ (by omega)
        _ = 3 * 1 * (n * s) := by ring
        _ ≤ _ := Nat.mul_le_mul_right _ (by omega)
    split
    · rename_i h
      have hs' := hs (by omega)
      split
      · split
        · exact hend ‹_› (by omega) (by rw [sumFactors_eight]; omega) (by omega) (by omega)
        · exact hend ‹_› (by omega) (by rw [sumFactors_eight]; omega) (by omega) (one_dvd _)
      · refine hrec 8 (by omega) h ‹_› (by rw [sumFactors_eight]; omega) (fun _ => by omega) _ ?_
        split
        · exact mixCore_am (by omega) (by omega) (Nat.dvd_of_mod_eq_zero h) (by omega) (by omega)
        · exact mixCore_am (by omega) (by omega) (Nat.dvd_of_mod_eq_zero h) (by omega) (one_dvd _)
    split
    · rename_i h
      have hs' := hs (by omega)
      split
      · split
        · exact hend ‹_› (by omega) (by rw [sumFactors_four]; omega) (by omega) (by omega)
        · exact hend ‹_› (by omega) (by rw [sumFactors_four]; omega) (by omega) (one_dvd _)
      · refine hrec 4 (by omega) h ‹_› (by rw [sumFactors_four]; omega) (fun _ => by omega) _ ?_
        split
        · exact mixCore_am (by omega) (by omega) (Nat.dvd_of_mod_eq_zero h) (by omega) (by omega)
        · exact mixCore_am (by omega) (by omega) (Nat.dvd_of_mod_eq_zero h) (by omega) (one_dvd _)
    split
    · rename_i h
      have hs' := hs (by omega)
      split
      · split
        · exact hend ‹_› (by omega) (by rw [sumFactors_two]; omega) (by omega) (by omega)
        · exact hend ‹_› (by omega) (by rw [sumFactors_two]; omega) (by omega) (one_dvd _)
      · refine hrec 2 (by omega) h ‹_› (by rw [sumFactors_two]; omega) (fun _ => by omega) _ ?_
        split
        · exact mixCore_am (by omega) (by omega) (Nat.dvd_of_mod_eq_zero h) (by omega) (by omega)
        · exact mixCore_am (by omega) (by omega) (Nat.dvd_of_mod_eq_zero h) (by omega) (one_dvd _)
    split
    · rename_i h
      split
      · exact hend ‹_› (by omega) (by rw [sumFactors_five]; omega) (by omega) (one_dvd _)
      · refine hrec 5 (by omega) h ‹_› (by rw [sumFactors_five]; omega) (fun _ => by omega) _ ?_
        exact mixCore_am (by omega) (by omega) (Nat.dvd_of_mod_eq_zero h) (by omega) (one_dvd _)
    split
    · rename_i h
      split
      · exact hend ‹_› (by omega) (by rw [sumFactors_three]; omega) (by omega) (one_dvd _)
      · refine hrec 3 (by omega) h ‹_› (by rw [sumFactors_three]; omega) (fun _ => by omega) _ ?_
        exact mixCore_am (by omega) (by omega) (Nat.dvd_of_mod_eq_zero h) (by omega) (one_dvd _)
    · rename_i h8 h4 h2 h5 h3
      refine mixAny_am n 7 s eo x y hn (by omega) (by omega) (by omega) ?_
      by_contra hc
      have hp := Nat.minFac_prime (show n ≠ 1 by omega)
      have hd := Nat.minFac_dvd n
      have := hp.two_le
      generalize n.minFac = q at *
      have : q < 7 := by omega
      interval_cases q
      · omega
      · omega
      · exact absurd hp (by decide)
      · omega
      · exact absurd hp (by decide)

/-- powers of two -/
theorem mixFFT_pow_am {inv : Bool} {path : Path} {W : Ptr} (j : ℕ) : ∀ (s : ℕ) (eo : Bool) (x y : Ptr), 1 ≤ j →
    (s = 1 ∨ 2 ∣ s) → IAM (mixFFT C inv path (2 ^ j) s eo x y W) (2 * (2 ^ j * s) * j) := by
  induction j using Nat.strong_induction_on with
  | _ j ih =>
    intro s eo x y hj hs
    rw [mixFFT.eq_def]
    simp only
    split
    · exact IAM.nil
    have hrec : ∀ q, 2 ≤ q → q < j → ∀ I : Items C, IAM I (3 * (2 ^ j * s)) →
        IAM (I ++ mixFFT C inv path (2 ^ j / 2 ^ q) (2 ^ q * s) (!eo) y x W) (2 * (2 ^ j * s) * j) := by
      intro q hq hqj I hI
      obtain ⟨e1, e2, e3⟩ := pow_split hqj
      have e4 : 2 ^ (j - q) * (2 ^ q * s) = 2 ^ j * s := by
        rw [← mul_assoc, ← pow_add, Nat.sub_add_cancel hqj.le]
      rw [e1]
      have := ih (j - q) (by omega) (2 ^ q * s) (!eo) y x (by omega) (Or.inr ((dvd_pow_self 2 (by omega)).mul_right s))
      rw [e4] at this
      refine (hI.append this).mono ?_
      generalize 2 ^ j * s = M
      obtain ⟨i, rfl⟩ : ∃ i, j = q + i := ⟨j - q, by omega⟩
      rw [Nat.add_sub_cancel_left]
      nlinarith
    have hend : ∀ {r : ℕ} {B : BF r} {L : ℕ} {single : Bool} {z : Ptr}, 2 ^ j = r → 0 < L → L ∣ s →
        IAM (mixEnd C (mixEndBF B) L Fin.elim0 path single s x z W) (2 * (2 ^ j * s) * j) := by
      intro r B L single z he hL hLs
      refine (mixEnd_am hL hLs).mono ?_
      rw [he]
      calc (2 * r + 0) * s = 2 * (r * s) * 1 := by ring
        _ ≤ _ := Nat.mul_le_mul_left _ hj
    rcases Nat.lt_or_ge j 3 with hj3 | hj3
    · interval_cases j
      · simp only [pow_one, show ¬ (2 % 8 = 0) by decide, if_false, if_true, show 2 % 2 = 0 by decide]
        split
        · exact hend rfl (by omega) (by omega)
        · exact hend rfl (by omega) (one_dvd _)
      · simp only [show (2 : ℕ) ^ 2 = 4 by decide, show ¬ (4 % 8 = 0) by decide, if_false, if_true, show 4 % 4 = 0 by decide]
        split
        · exact hend rfl (by omega) (by omega)
        · exact hend rfl (by omega) (one_dvd _)
    · have h8 : 8 ∣ 2 ^ j := Nat.pow_dvd_pow 2 hj3
      rw [if_pos (Nat.mod_eq_zero_of_dvd h8)]
      split
      · split
        · exact hend ‹_› (by omega) (by omega)
        · exact hend ‹_› (by omega) (one_dvd _)
      · rename_i hne
        have hj3' : 3 < j := by
          rcases Nat.lt_or_eq_of_le hj3 with h | h
          · exact h
          · subst h; exact absurd rfl hne
        refine hrec 3 (by omega) hj3' _ ?_
        split
        · exact mixCore_am (by omega) (by omega) h8 (by omega) (by omega)
        · exact mixCore_am (by omega) (by omega) h8 (by omega) (one_dvd _)

theorem scalePass_am {par : Bool} {N : ℕ} {f : F} {x : Ptr} : TasksAM (scalePass C par N f x).flatten (2 * N) := by
  unfold scalePass
  rw [loop_flatten]
  refine (TasksAM.tasks1 (a := (1 + 0 + 1) * 1) ?_).mono (by omega)
  intro i _
  exact bfly_am _ _ _ _

theorem mixRun_of {thr : Thr} {inv : Bool} {mode : ScaleMode} {N B : ℕ} {x y W : Ptr}
    (h : ∀ path, IAM (mixFFT C inv path N 1 false x y W) B) : TasksAM (mixRun C thr inv mode N x y W).flatten (B + 2 * N) := by
  unfold mixRun
  simp only
  rw [List.flatten_append]
  refine (h _).region.append ?_
  cases mode
  · exact .nil
  · exact scalePass_am
  · exact scalePass_am

theorem mixRun_am {thr : Thr} {inv : Bool} {mode : ScaleMode} {N : ℕ} {x y W : Ptr} :
    TasksAM (mixRun C thr inv mode N x y W).flatten (N * (3 * sumFactors N + 2)) := by
  refine (mixRun_of (B := 3 * sumFactors N * (N * 1)) fun path => ?_).mono (le_of_eq (by ring))
  rcases Nat.lt_or_ge 1 N with h | h
  · exact mixFFT_am N 1 false x y h (fun _ => Or.inl rfl)
  · rw [mixFFT.eq_def]
    simp only
    rw [dif_pos (by omega)]
    exact IAM.nil

theorem mixRun_pow_am {thr : Thr} {inv : Bool} {mode : ScaleMode} {k : ℕ} {x y W : Ptr} :
    TasksAM (mixRun C thr inv mode (2 ^ k) x y W).flatten (2 * 2 ^ k * (k + 5)) := by
  refine (mixRun_of (B := 2 * (2 ^ k * 1) * k) fun path => ?_).mono ?_
  · rcases Nat.eq_zero_or_pos k with rfl | h
    · rw [mixFFT.eq_def]
      simp only
      rw [dif_pos (by norm_num)]
      exact IAM.nil
    · exact mixFFT_pow_am k 1 false x y h (Or.inl rfl)
  · have := Nat.two_pow_pos k
    nlinarith

end OTFFT
