/- The SIMD kernels compute lane by lane. -/
import Verif.Model.Stockham
import Mathlib.Tactic.FinCases

namespace OTFFT

variable {F C : Type}

/-- the butterfly at width `L` is the scalar butterfly in every lane -/
def LaneWise {r : Nat} (B : BF r) : Prop :=
  ∀ {F C : Type} [PZ F C] (L : Nat) (x : Fin r → Fin L → C) (k : Fin r) (l : Fin L),
    B.fn (V := Fin L → C) x k l = B.fn (V := C) (fun j => x j l) k

theorem lane_bf2 : LaneWise bf2 := by
  intro F C _ L x k l; fin_cases k <;> rfl
theorem lane_bf4 (inv : Bool) : LaneWise (bf4 inv) := by
  intro F C _ L x k l; cases inv <;> fin_cases k <;> rfl
theorem lane_bf8 (inv : Bool) : LaneWise (bf8 inv) := by
  intro F C _ L x k l; cases inv <;> fin_cases k <;> rfl
theorem lane_bf16 (inv : Bool) : LaneWise (bf16 inv) := by
  intro F C _ L x k l; cases inv <;> fin_cases k <;> rfl

section
variable [PZ F C] {L : Nat}

theorem cj_lane (inv : Bool) (w : Fin L → C) (l : Fin L) : cj inv w l = cj inv (w l) := by
  cases inv <;> rfl

theorem wpow_lane (w : Fin L → C) (l : Fin L) : ∀ k, wpow w k l = wpow (w l) k := by
  intro k
  induction k using Nat.strong_induction_on with
  | _ k ih =>
    rw [wpow.eq_1 w, wpow.eq_1 (w l)]
    split
    · rfl
    · split
      · show mulpz (wpow w (k/2) l) (wpow w (k/2) l) = _
        rw [ih _ (by omega)]
      · show mulpz (wpow w (k/2) l) (wpow w (k/2+1) l) = _
        rw [ih _ (by omega), ih _ (by omega)]

theorem scalepz_lane [DArith F] (N : Nat) (mode : ScaleMode) (w : Fin L → C) (l : Fin L) :
    scalepz N mode w l = scalepz N mode (w l) := by
  cases mode <;> rfl

theorem difOut_lane {r : Nat} {B : BF r} (hB : LaneWise B) (X : Fin r → Fin L → C)
    (T : Fin (r-1) → Fin L → C) (k : Fin r) (l : Fin L) :
    difOut B X T k l = difOut B (fun j => X j l) (fun j => T j l) k := by
  unfold difOut
  split
  · exact hB L X k l
  · show mulpz (T _ l) (B.fn X k l) = _
    rw [hB]

theorem ditOut_lane {r : Nat} {B : BF r} (hB : LaneWise B) (X : Fin r → Fin L → C)
    (T : Fin (r-1) → Fin L → C) (k : Fin r) (l : Fin L) :
    ditOut B X T k l = ditOut B (fun j => X j l) (fun j => T j l) k := by
  unfold ditOut
  rw [hB]
  congr 1
  funext j
  split <;> rfl

end

end OTFFT
