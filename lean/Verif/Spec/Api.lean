/-
What it means that a sequence of calls on an object computes something.
-/
import Verif.Model.Api
import Verif.Spec.Memory
import Verif.Spec.DFT

namespace OTFFT

variable {C : Type}

/-- Construct an object of class `X` and length `n` in memory `w`, make the calls `cs`, destroy the
object.  Under every schedule and every outcome of every allocation: no undefined behaviour, the
program ends, nothing stays allocated; if the constructor did not throw, `out[0..m)` holds `r` and
every other memory cell is as before; if it threw, memory is unchanged.  And the constructor does
not throw unless an allocation returned null. -/
def Computes (X : Cls C) (n : Nat) (cs : List X.Call) (w : World C) (out : Ptr) (m : Nat) (r : Nat → C) :
    Prop :=
  (X.lifetime n (cs.map .call)).wp (fun ok w' =>
    w'.live = w.live ∧
    (ok = true → Arr w'.heap out m r ∧ ∀ l, l ∉ Region out m → w'.heap l = w.heap l) ∧
    (ok = false → w'.heap = w.heap)) w ∧
  (X.lifetime n (cs.map .call)).NoFail (fun ok => ok = true)

/-- The same when besides `out` the cells in `D` may be overwritten. -/
def ComputesIn (X : Cls C) (n : Nat) (cs : List X.Call) (w : World C) (D : Set Loc) (out : Ptr) (m : Nat)
    (r : Nat → C) : Prop :=
  (X.lifetime n (cs.map .call)).wp (fun ok w' =>
    w'.live = w.live ∧
    (ok = true → Arr w'.heap out m r ∧ ∀ l, l ∉ Region out m ∪ D → w'.heap l = w.heap l) ∧
    (ok = false → w'.heap = w.heap)) w ∧
  (X.lifetime n (cs.map .call)).NoFail (fun ok => ok = true)

end OTFFT
