/-
Correct use of `simd_array`.
-/
import Verif.Model.SimdArray

namespace OTFFT

/-- The program does not copy or assign arrays; it uses variables that exist, and writes only to elements `j < n` where `n`
is the length the array was made with or set up with last. `s i` is that length, `none` if the array is empty: never set
up, destroyed, or the last `setup` threw. -/
def ArrProg.Legal {C : Type} : ArrProg C → ℕ → (ℕ → Option ℕ) → Prop
  | .done, _, _ => True
  | .empty next, k, s => next.Legal (k + 1) fun i => if i = k then none else s i
  | .make n next threw, k, s => (next.Legal (k + 1) fun i => if i = k then some n.toNat else s i) ∧ threw.Legal k s
  | .setup i n next threw, k, s => i < k ∧ (next.Legal k fun j => if j = i then some n.toNat else s j) ∧
      threw.Legal k fun j => if j = i then none else s j
  | .destroy i next, k, s => i < k ∧ next.Legal k fun j => if j = i then none else s j
  | .store i j _ next, k, s => i < k ∧ (∃ n, s i = some n ∧ j < n) ∧ next.Legal k s
  | .copy _ _, _, _ => False
  | .assign _ _ _, _, _ => False

/-- The program does not assign arrays to each other (it may copy them). -/
def ArrProg.NoAssign {C : Type} : ArrProg C → Prop
  | .done => True
  | .empty next => next.NoAssign
  | .make _ next threw => next.NoAssign ∧ threw.NoAssign
  | .setup _ _ next threw => next.NoAssign ∧ threw.NoAssign
  | .destroy _ next => next.NoAssign
  | .store _ _ _ next => next.NoAssign
  | .copy _ next => next.NoAssign
  | .assign _ _ _ => False

/-- All variables the program mentions exist. -/
def ArrProg.Scoped {C : Type} : ArrProg C → ℕ → Prop
  | .done, _ => True
  | .empty next, k => next.Scoped (k + 1)
  | .make _ next threw, k => next.Scoped (k + 1) ∧ threw.Scoped k
  | .setup i _ next threw, k => i < k ∧ next.Scoped k ∧ threw.Scoped k
  | .destroy i next, k => i < k ∧ next.Scoped k
  | .store i _ _ next, k => i < k ∧ next.Scoped k
  | .copy i next, k => i < k ∧ next.Scoped (k + 1)
  | .assign i j next, k => i < k ∧ j < k ∧ next.Scoped k

end OTFFT
