/-
C32: what a `setup` that throws leaves behind. All theorems hold for any arithmetic.
-/
import Verif.Proof.Fail
import Verif.Props.Edge

namespace OTFFT.Props
open OTFFT

variable {F C : Type} [DArith F] [CArith F C] [Inhabited C] {thr : Thr} {w0 w : World C} {m n : ℕ}

/-- After a `setup` that threw, setting the object up again is safe whatever `malloc` does; if that `setup`
succeeds the object is in the state of some valid history, so that everything proved about such objects
(C10, C11, C30, …) holds for it; and if the new length is not negative and no further
allocation fails, it does succeed. -/
def Recovers {C : Type} (X : Cls C) (setupOK : ℤ → Prop) (callOK : ℕ → X.Call → Heap C → Prop) (w0 : World C) (o : X.Obj)
    (w : World C) : Prop :=
  ∀ n, setupOK n → ¬ (X.setup o n).MayUB w ∧
    (∀ o' w', (X.setup o n).Runs w (o', false) w' → After X setupOK callOK w0 n.toNat o' w') ∧
    (0 ≤ n → (X.setup o n).NoFail (fun r => r.2 = false))

theorem recovers {C : Type} {X : Cls C} (S : ClsSpec X) {callOK : ℕ → X.Call → Heap C → Prop} {w0 w w1 : World C}
    {o o1 : X.Obj} {thrown : Bool} {m : ℕ} {n1 : ℤ} (hw : w0.WF)
    (hc : ∀ n c, callOK n c w0.heap → S.Valid n c w0.live w0.heap)
    (ha : After X S.SetupOK callOK w0 m o w) (h1 : S.SetupOK n1)
    (r1 : (X.setup o n1).Runs w (o1, thrown) w1)
    (hf : ∀ n, 0 ≤ n → (X.setup o1 n).NoFail (fun r => r.2 = false)) : Recovers X S.SetupOK callOK w0 o1 w1 := by
  intro n hn
  have ow := (After.spec S hw hc ha).1
  have ow1 := (Act.wp_runs (S.setup_spec o n1 h1 ow) r1).1
  exact ⟨Act.wp_noUB (S.setup_spec o1 n hn ow1), fun o' w' r2 => ha.setup_again h1 hn r1 r2, hf n⟩

/-- C32 for `ComplexFFT`, after any history: (1) whatever `setup(n)` does — throw or not — the object can be
set up again; (2) `setup(n)`, `n ≠ 1`, can throw, and (3) the object it leaves must not be used: then every
execution of every transform, with any argument in any memory, runs into undefined behaviour. -/
theorem C32_complex {o : FFT} (hw : w0.WF)
    (ha : After (complexFFT C thr) intLen complexOK w0 m o w) :
    (∀ n o1 w1 thrown, intLen n → ((complexFFT C thr).setup o n).Runs w (o1, thrown) w1 →
      Recovers (complexFFT C thr) intLen complexOK w0 o1 w1) ∧
    ∀ n : ℕ, n < 2 ^ 31 - 1 → n ≠ 1 → ∃ o1 w1, ((complexFFT C thr).setup o n).Runs w (o1, true) w1 ∧
      ∀ e x h, AlwaysUB (((complexFFT C thr).call o1 (e, x)).start h) := by
  refine ⟨fun n o1 w1 t hn r => recovers (complexFFTSpec C thr) hw (complexOK.valid hw) ha hn r
    fun n h => FFT.setup_noFail h, fun n hi hn => ?_⟩
  obtain ⟨w1, hr, -⟩ := Act.wp_exists_fail ((complexFFTSpec C thr).setup_spec o n ⟨by omega, by omega⟩ (ha.complex hw).1)
  have e1 : ((complexFFT C thr).setup o n).onFail = _ := FFT.setup_onFail (C := C) (thr := thr) o hn
  rw [e1] at hr
  exact ⟨_, w1, hr, fun e x h => Code.Doomed.alwaysUB (FFT0.call_null rfl e x _) h⟩

/-- C32 for `RealFFT`, `n ≥ 4`. -/
theorem C32_real {o : RFFT} (hw : w0.WF) (ha : After (realFFT C thr) intLen realOK w0 m o w) :
    (∀ n o1 w1 thrown, intLen n → ((realFFT C thr).setup o n).Runs w (o1, thrown) w1 →
      Recovers (realFFT C thr) intLen realOK w0 o1 w1) ∧
    ∀ n : ℕ, 4 ≤ n → n < 2 ^ 31 - 1 → ∃ o1 w1, ((realFFT C thr).setup o n).Runs w (o1, true) w1 ∧
      ∀ e x y h, AlwaysUB (((realFFT C thr).call o1 (e, x, y)).start h) := by
  refine ⟨fun n o1 w1 t hn r => recovers (realFFTSpec C thr) hw (realOK.valid hw) ha hn r
    fun n h => RFFT.setup_noFail (by omega), fun n hn hi => ?_⟩
  obtain ⟨w1, hr, -⟩ := Act.wp_exists_fail ((realFFTSpec C thr).setup_spec o n ⟨by omega, by omega⟩ (ha.real hw).1)
  have e1 : ((realFFT C thr).setup o n).onFail = _ := RFFT.setup_onFail (C := C) (thr := thr) o (n := n) (by omega)
  rw [e1] at hr
  exact ⟨_, w1, hr, fun e x y h => Code.Doomed.alwaysUB (RFFT.call_null rfl (show 2 ≤ n by omega) e x y) h⟩

/-- C32 for `RealDCT`, `n ≥ 4`. -/
theorem C32_dct {o : DCT} (hw : w0.WF) (ha : After (realDCT C thr) dctLen dctOK w0 m o w) :
    (∀ n o1 w1 thrown, dctLen n → ((realDCT C thr).setup o n).Runs w (o1, thrown) w1 →
      Recovers (realDCT C thr) dctLen dctOK w0 o1 w1) ∧
    ∀ n : ℕ, 4 ≤ n → n < 2 ^ 30 → ∃ o1 w1, ((realDCT C thr).setup o n).Runs w (o1, true) w1 ∧
      ∀ e x h, AlwaysUB (((realDCT C thr).call o1 (e, x)).start h) := by
  refine ⟨fun n o1 w1 t hn r => recovers (realDCTSpec C thr) hw (dctOK.valid hw) ha hn r
    fun n h => DCT.setup_noFail h, fun n hn hi => ?_⟩
  obtain ⟨w1, hr, -⟩ := Act.wp_exists_fail ((realDCTSpec C thr).setup_spec o n ⟨by omega, by omega⟩ (ha.dct hw).1)
  have e1 : ((realDCT C thr).setup o n).onFail = _ := DCT.setup_onFail (C := C) (thr := thr) o (n := n) (by omega)
  rw [e1] at hr
  exact ⟨_, w1, hr, fun e x h => Code.Doomed.alwaysUB (DCT.call_null rfl (show 2 ≤ n by omega) (show 2 ≤ n by omega) e x) h⟩

/-- C32 for Bluestein objects, `2 ≤ n ≤ 2^29`. -/
theorem C32_bluestein {o : Bluestein} (hw : w0.WF)
    (ha : After (bluesteinFFT C thr) blueLen blueOK w0 m o w) :
    (∀ n o1 w1 thrown, blueLen n → ((bluesteinFFT C thr).setup o n).Runs w (o1, thrown) w1 →
      Recovers (bluesteinFFT C thr) blueLen blueOK w0 o1 w1) ∧
    ∀ n : ℕ, 2 ≤ n → n ≤ 2 ^ 29 → ∃ o1 w1, ((bluesteinFFT C thr).setup o n).Runs w (o1, true) w1 ∧
      ∀ e x h, AlwaysUB (((bluesteinFFT C thr).call o1 (e, x)).start h) := by
  refine ⟨fun n o1 w1 t hn r => recovers (bluesteinSpec C thr) hw (blueOK.valid hw) ha hn r
    fun n _ => Bluestein.setup_noFail, fun n hn h29 => ?_⟩
  obtain ⟨w1, hr, -⟩ := Act.wp_exists_fail ((bluesteinSpec C thr).setup_spec o n (by show _ ≤ _; omega) (ha.blue hw).1)
  obtain ⟨L, e1⟩ := Bluestein.setup_onFail (C := C) (thr := thr) o hn h29
  have e1 : ((bluesteinFFT C thr).setup o n).onFail = _ := e1
  rw [e1] at hr
  exact ⟨_, w1, hr, fun e x h => Code.Doomed.alwaysUB (Bluestein.call_null rfl hn e x) h⟩

end OTFFT.Props
