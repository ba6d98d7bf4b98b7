/-
What a user of the factory expects.
-/
import Verif.Model.Public
import Verif.Spec.Memory

namespace OTFFT.Spec
open OTFFT

/-- some compiled-in and detected back end is allowed by the request -/
def available (b : Build) (c : Cpu) (t : OptType) : Prop := ∃ i, builtIn b i ∧ detected c i ∧ requested t i

/-- the operating system enabled XSAVE (unless the processor has no CPUID leaf 1), and the processor reports AVX if it
reports AVX2 -/
def sane (c : Cpu) : Prop := probeOk c ∧ (c.ebx7.getLsbD 5 = true → c.ecx1.getLsbD 28 = true)

end OTFFT.Spec

namespace OTFFT

variable {C : Type}

/-- `auto p = Factory::createX(n, t);`, the calls `cs`, end of scope. Under every schedule and every outcome of every
allocation: no undefined behaviour, no illegal instruction, no exception out of the deleter, nothing stays allocated
(not even the object itself), and either the constructor did not throw and `out[0..m)` holds values with the property `P`
while all cells outside `out` and `D` are as before, or it threw and memory is unchanged. It does not throw unless an
allocation returned null. -/
def PublicComputes (b : Build) (c : Cpu) (k : Family) (X : Isa → Cls C) (n : Nat) (t : OptType)
    (cs : ∀ i, List (X i).Call) (w : World C) (D : Set Loc) (out : Ptr) (m : Nat) (P : (Nat → C) → Prop) : Prop :=
  (publicLife b c k X n t fun i => (cs i).map .call).wp (fun r w' =>
    w'.live = w.live ∧
    ((r = .ended true ∧ ∃ v, P v ∧ Arr w'.heap out m v ∧ ∀ l, l ∉ Region out m ∪ D → w'.heap l = w.heap l) ∨
      (r = .ended false ∧ w'.heap = w.heap))) w ∧
  (publicLife b c k X n t fun i => (cs i).map .call).NoFail (fun r => r = .ended true)

/-- A whole client program around one smart pointer: no undefined behaviour, it ends without illegal instruction and
without `std::terminate`, nothing stays allocated, and if no allocation fails and no length is negative, nothing throws. -/
def PublicClean (b : Build) (c : Cpu) (k : Family) (X : Isa → Cls C) (n : Int) (t : OptType)
    (ops : ∀ i, List (Op C (X i).Call)) (nonneg : Prop) (w : World C) : Prop :=
  ¬ (publicLife b c k X n t ops).MayUB w ∧
  (∀ r w', (publicLife b c k X n t ops).Runs w r w' → (∃ ok, r = .ended ok) ∧ w'.live = w.live) ∧
  (nonneg → (publicLife b c k X n t ops).NoFail (fun r => r = .ended true))

end OTFFT
