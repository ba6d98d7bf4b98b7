/-
Counting the work of an execution: memory accesses and requested memory.
-/
import Verif.Model.Api
import Mathlib.Data.Nat.Factors

namespace OTFFT

/-- `ReachIn c k d`: some schedule leads from `c` to `d` with exactly `k` loads and stores, counted over all
threads. -/
inductive ReachIn {C : Type} : Config C → ℕ → Config C → Prop where
  | refl (c) : ReachIn c 0 c
  | task {ts rest h p p' h' k d} (i : Nat) : ts[i]? = some p → TStep p h p' h' →
      ReachIn ⟨ts.set i p', rest, h'⟩ k d → ReachIn ⟨ts, rest, h⟩ (k + 1) d
  | barrier {ts ph rest h k d} : (∀ t ∈ ts, t = .ret ()) → ReachIn ⟨ph, rest, h⟩ k d →
      ReachIn ⟨ts, ph :: rest, h⟩ k d

/-- Under every schedule, from every heap and up to every point of the execution, at most `B` loads and stores
have been made. -/
def Code.WorkAtMost {C : Type} (c : Code C) (B : ℕ) : Prop :=
  ∀ h k d, ReachIn (c.start h) k d → k ≤ B

/-- Every complete execution makes at least `B` loads and stores. -/
def Code.WorkAtLeast {C : Type} (c : Code C) (B : ℕ) : Prop :=
  ∀ h k d, ReachIn (c.start h) k d → d.Final → B ≤ k

/-- `RunsIn m w k s a w'`: some execution of `m` from `w` ends with result `a` in `w'`, makes `k` loads and stores
and requests `s` array elements from `malloc` in total. -/
inductive Act.RunsIn {C α : Type} : Act C α → World C → ℕ → ℕ → α → World C → Prop where
  | ret {a w} : Act.RunsIn (.ret a) w 0 0 a w
  | run {c k} {w : World C} {d : Config C} {i j s a w'} : ReachIn (c.start w.heap) i d → d.Final →
      Act.RunsIn k ⟨d.heap, w.live⟩ j s a w' → Act.RunsIn (.run c k) w (i + j) s a w'
  | mallocFail {n k} {w : World C} {j s a w'} : Act.RunsIn (k none) w j s a w' →
      Act.RunsIn (.malloc n k) w j (n + s) a w'
  | mallocOk {n k} {w : World C} {j s a w'} (b : Nat) : b ≠ 0 → b ∉ w.live →
      Act.RunsIn (k (some b)) (w.alloc b n) j s a w' → Act.RunsIn (.malloc n k) w j (n + s) a w'
  | free {b k} {w : World C} {j s a w'} : b ∈ w.live → Act.RunsIn k (w.free b) j s a w' →
      Act.RunsIn (.free b k) w j s a w'

/-- Every complete execution of `m`, from every world, makes at most `A` loads and stores and requests at most `S`
array elements. -/
def Act.WorkAtMost {C α : Type} (m : Act C α) (A S : ℕ) : Prop :=
  ∀ w k s a w', m.RunsIn w k s a w' → k ≤ A ∧ s ≤ S

/-- the sum of the prime factors of `n`, with multiplicity -/
def sumFactors (n : ℕ) : ℕ := (Nat.primeFactorsList n).sum

/-- the sum of those prime factors of `n` that are at least 7, with multiplicity -/
def largeFactors (n : ℕ) : ℕ := ((Nat.primeFactorsList n).filter (7 ≤ ·)).sum

/-- The access budget of a client program: the object has length `m` now; `call n` is the price of one transform of
length `n`, `setup n` that of `setup(n)` (a negative argument counts as 0), an assignment costs 1. -/
def accesses {C Call : Type} (call setup : ℕ → ℕ) : ℕ → List (Op C Call) → ℕ
  | _, [] => 0
  | _, .setup n :: ops => setup n.toNat + accesses call setup n.toNat ops
  | m, .call _ :: ops => call m + accesses call setup m ops
  | m, .store _ _ :: ops => 1 + accesses call setup m ops

/-- the memory budget of a client program, when `setup(n)` requests at most `cells n` array elements -/
def requests {C Call : Type} (cells : ℕ → ℕ) : List (Op C Call) → ℕ
  | [] => 0
  | .setup n :: ops => cells n.toNat + requests cells ops
  | .call _ :: ops => requests cells ops
  | .store _ _ :: ops => requests cells ops

end OTFFT
