/-
Vocabulary of the statements about memory.
-/
import Verif.Model.Act
import Mathlib.Data.Nat.Prime.Defs

namespace OTFFT

variable {C : Type}

/-- cells `p[0..n)` hold the values `v 0, …, v (n-1)` -/
def Arr (h : Heap C) (p : Ptr) (n : Nat) (v : Nat → C) : Prop :=
  ∀ i, i < n → h (p + i).loc = some (some (v i))

/-- cells `p[0..n)` are allocated -/
def Alloc (h : Heap C) (p : Ptr) (n : Nat) : Prop := ∀ i, i < n → h (p + i).loc ≠ none

/-- the locations `p[0..n)` -/
def Region (p : Ptr) (n : Nat) : Set Loc := {l | ∃ i, i < n ∧ l = (p + i).loc}

/-- two arrays do not overlap -/
def Sep (p : Ptr) (n : Nat) (q : Ptr) (m : Nat) : Prop := ∀ i < n, ∀ j < m, p + i ≠ q + j

/-- all cells of `p[0..n)` hold values -/
def Filled (h : Heap C) (p : Ptr) (n : Nat) : Prop := ∀ i < n, ∃ v, h (p + i).loc = some (some v)

/-- lengths for which a transform is defined: values of type `int` that are at least 2 and have no prime factor above
46341 -/
structure ValidLen (n : Nat) : Prop where
  two : 2 ≤ n
  small : ∀ q, q.Prime → q ∣ n → q ≤ 46341
  int : n < 2 ^ 31

/-- lengths for which the real transforms are defined: 1, or an even `int` with `n/2 ≥ 2` without prime factor above
46341 -/
def RealLen (n : Nat) : Prop := n = 1 ∨ ∃ m, n = 2 * m ∧ ValidLen m ∧ n < 2 ^ 31

/-- the caller's array `x[0..n)` with contents `v` in a well-formed memory -/
structure UserArray (w : World C) (x : Ptr) (n : Nat) (v : Nat → C) : Prop where
  wf : w.WF
  arr : Arr w.heap x n v

end OTFFT
