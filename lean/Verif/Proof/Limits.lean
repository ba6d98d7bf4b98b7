/-
Lengths outside the supported range: the transforms of the objects always reach undefined behaviour.
-/
import Verif.Proof.Overflow
import Verif.Proof.History

namespace OTFFT

set_option linter.unusedSectionVars false

variable {F C : Type} [DArith F] [CArith F C] {thr : Thr}

theorem lastLen_lt {α : Type} {P : Int → Prop} {ok : Nat → α → Heap C → Prop} {w : World C} {b : Nat}
    (hP : ∀ n, P n → n.toNat < b) : ∀ (ops : List (Op C α)) (m : Nat), m < b → ValidOps P ok w m ops → lastLen m ops < b
  | [], _, hm, _ => hm
  | .setup n :: ops, _, _, h => lastLen_lt hP ops _ (hP n h.1) h.2
  | .call _ :: ops, _, hm, h => lastLen_lt hP ops _ hm h.2
  | .store _ _ :: ops, _, hm, h => lastLen_lt hP ops _ hm h.2

theorem After.lt {X : Cls C} {P : Int → Prop} {ok : Nat → X.Call → Heap C → Prop} {w0 w : World C} {n b : Nat} {o : X.Obj}
    (hP : ∀ n, P n → n.toNat < b) (h : After X P ok w0 n o w) : n < b := by
  obtain ⟨n0, ops, h0, h1, rfl, _⟩ := h
  exact lastLen_lt hP ops _ (hP _ h0) h1

theorem After.lt31 {X : Cls C} {ok : Nat → X.Call → Heap C → Prop} {w0 w : World C} {n : Nat} {o : X.Obj}
    (h : After X intLen ok w0 n o w) : n < 2 ^ 31 :=
  h.lt fun n hn => by have := hn.2; omega

theorem After.lt30 {X : Cls C} {ok : Nat → X.Call → Heap C → Prop} {w0 w : World C} {n : Nat} {o : X.Obj}
    (h : After X dctLen ok w0 n o w) : n < 2 ^ 30 :=
  h.lt fun n hn => by have := hn.2; omega

theorem not_validLen {n : Nat} (hn : 1 ≤ n) (hi : n < 2 ^ 31) (h : ¬ ValidLen n) :
    n = 1 ∨ ∃ q, q.Prime ∧ q ∣ n ∧ 46341 < q := by
  by_contra hc
  push Not at hc
  exact h ⟨by omega, fun q hq hd => hc.2 q hq hd, hi⟩

theorem crash_doomed : Code.Doomed ([[.ub]] : Code C) := ⟨_, List.mem_singleton_self _, _, List.mem_singleton_self _, .ub⟩

theorem FFT0.call_doomed {o : FFT0} {n : Nat} {e : Entry} {x y : Ptr} {h : Heap C}
    (h1 : 1 ≤ n) (hi : n < 2 ^ 31) (hn : ¬ ValidLen n) (hr : o.Ready C thr n h) : (o.call C thr e x y).Doomed := by
  rw [FFT0.call_eq]
  unfold FFT0.obj_call
  have hob := hr.obj
  rcases not_validLen h1 hi hn with rfl | hq
  · rw [show logOf 1 = some 0 from logOf_pow 0] at hob
    simp only [dispatch] at hob
    rw [hob]
    exact crash_doomed
  · have hl : logOf n = none := by
      apply logOf_none
      rintro k rfl
      obtain ⟨q, hq, hd, hb⟩ := hq
      have := (Nat.prime_dvd_prime_iff_eq hq Nat.prime_two).1 (hq.dvd_of_dvd_pow hd)
      omega
    rw [hl] at hob
    simp only [dispatch] at hob
    obtain ⟨a, ha, hk, hp, hra⟩ := hob
    rw [ha]
    unfold Algo.Ready at hra
    rw [hk] at hra
    simp only [Algo.transform, hk]
    rw [hra.1]
    exact mixRun_doomed h1 hq

theorem FFT.call_doomed {o : FFT} {n : Nat} {e : Entry} {x : Ptr} {h : Heap C}
    (h1 : 1 ≤ n) (hi : n < 2 ^ 31) (hn : ¬ ValidLen n) (hr : o.Ready C thr n h) : (o.call C thr e x).Doomed :=
  FFT0.call_doomed h1 hi hn hr.fft

theorem RFFT.call_doomed {o : RFFT} {m : Nat} {e : Entry} {x y : Ptr} {h : Heap C}
    (h1 : 1 ≤ m) (hi : m < 2 ^ 31) (hn : ¬ ValidLen m) (hr : o.Ready C thr (2 * m) h) : (o.call C thr e x y).Doomed := by
  rw [RFFT.call_eq]
  have hf := hr.fft
  rw [show 2 * m / 2 = m by omega] at hf
  cases he : e.isInv with
  | false =>
    simp only [Bool.false_eq_true, if_false]
    unfold RFFT.fwdWith
    simp only [hr.len]
    rw [if_neg (by omega), if_neg (by omega)]
    exact .left (.left (.left (.right (FFT0.call_doomed h1 hi hn hf))))
  | true =>
    simp only [if_true]
    unfold RFFT.invWith
    simp only [hr.len]
    rw [if_neg (by omega), if_neg (by omega)]
    exact .left (.right (FFT0.call_doomed h1 hi hn hf))

theorem DCT.call_doomed {o : DCT} {m : Nat} {e : DctEntry} {x : Ptr} {h : Heap C}
    (h1 : 1 ≤ m) (hi : m < 2 ^ 31) (hn : ¬ ValidLen m) (hr : o.Ready C thr (2 * m) h) : (o.call C thr e x).Doomed := by
  rw [DCT.call_eq]
  cases he : e.isInv with
  | false =>
    simp only [Bool.false_eq_true, if_false]
    unfold DCT0.fwdWith
    simp only [hr.dct.len]
    rw [if_neg (by omega)]
    exact .left (.right (RFFT.call_doomed h1 hi hn hr.dct.rfft))
  | true =>
    simp only [if_true]
    unfold DCT0.invWith
    simp only [hr.dct.len]
    rw [if_neg (by omega)]
    exact .left (.right (RFFT.call_doomed h1 hi hn hr.dct.rfft))

end OTFFT
