/-
Programs that allocate, free and run code: what constructors, `setup`, destructors and user
programs built from them mean.
-/
import Verif.Model.Mem

namespace OTFFT

/-- `0`, the null pointer: block 0 is never allocated. (`W(0)`, src/otfft_algo_dif4.cpp:34) -/
def Ptr.null : Ptr := ⟨0, 0⟩

/-- the pointer to the start of block `b` (what `simd_malloc` returns, inc/otfft_complex.h:242-252) -/
def Ptr.base (b : Nat) : Ptr := ⟨b, 0⟩

/-- Memory of the process: cell contents and the set of blocks that are currently allocated.
(C++ semantics, no code of its own; the process memory that inc/otfft_complex.h:238-256 allocates from) -/
structure World (C : Type) where
  heap : Heap C
  live : Set Nat

/-- Cells exist only in allocated blocks, and the null block is not one of them.
(invariant of the semantics of inc/otfft_complex.h:238-256) -/
structure World.WF {C : Type} (w : World C) : Prop where
  null : 0 ∉ w.live
  dead : ∀ l : Loc, l.1 ∉ w.live → w.heap l = none

/-- `malloc` returned the new block `b` with `n` cells, all uninitialised.
(`simd_malloc`, inc/otfft_complex.h:242-252) -/
def World.alloc {C : Type} (w : World C) (b n : Nat) : World C where
  heap := fun l => if l.1 = b then (if l.2 < n then some none else none) else w.heap l
  live := insert b w.live

/-- `free` of block `b`. (`simd_free`, inc/otfft_complex.h:256) -/
def World.free {C : Type} (w : World C) (b : Nat) : World C where
  heap := fun l => if l.1 = b then none else w.heap l
  live := w.live \ {b}

/-- A program: run a piece of code, `malloc` (the continuation gets `none` for a null result),
`free`, or stop with a result. Nondeterminism: `malloc` may always fail and may return any
block that is not allocated; `run` may use any schedule.
(C++ semantics, no code of its own; the body of a constructor, `setup` or destructor, e.g. src/otfft_algo.cpp:48-103) -/
inductive Act (C : Type) (α : Type) where
  | ret (a : α)
  | run (c : Code C) (k : Act C α)
  | malloc (n : Nat) (k : Option Nat → Act C α)
  | free (b : Nat) (k : Act C α)

/-- sequential composition
(C++ semantics, no code of its own; `;` in such bodies, e.g. src/otfft_algo.cpp:154-159) -/
def Act.bind {C α β : Type} : Act C α → (α → Act C β) → Act C β
  | .ret a, f => f a
  | .run c k, f => .run c (k.bind f)
  | .malloc n k, f => .malloc n fun r => (k r).bind f
  | .free b k, f => .free b (k.bind f)

instance {C : Type} : Monad (Act C) where
  pure := .ret
  bind := .bind

/-- run code (C++ semantics, no code of its own; a call of a piece of code, e.g. src/otfft_algo.cpp:163) -/
def Act.exec {C : Type} (c : Code C) : Act C Unit := .run c (.ret ())

/-- dereference of a null object pointer
(C++ semantics, no code of its own; undefined behaviour in a body, e.g. `2*N` overflowing, src/otfft_algo.cpp:751) -/
def Act.crash {C : Type} : Act C Unit := .run [[.ub]] (.ret ())

/-- evaluation of an `int` expression whose mathematical value is `n`: signed overflow is undefined behaviour
(C++ semantics, no code of its own; an `int` expression in a body, e.g. src/otfft_algo.cpp:751) -/
def Act.int {C : Type} (n : Int) : Act C Unit :=
  if -2 ^ 31 ≤ n ∧ n < 2 ^ 31 then .ret () else .run [[.ub]] (.ret ())

/-- `Runs m w a w'`: some execution of `m` from `w` ends with result `a` in `w'`.
(C++ semantics, no code of its own; the possible executions of a body) -/
inductive Act.Runs {C α : Type} : Act C α → World C → α → World C → Prop where
  | ret {a w} : Act.Runs (.ret a) w a w
  | run {c k} {w : World C} {d : Config C} {a w'} : Reach (c.start w.heap) d → d.Final →
      Act.Runs k ⟨d.heap, w.live⟩ a w' → Act.Runs (.run c k) w a w'
  | mallocFail {n k} {w : World C} {a w'} : Act.Runs (k none) w a w' → Act.Runs (.malloc n k) w a w'
  | mallocOk {n k} {w : World C} {a w'} (b : Nat) : b ≠ 0 → b ∉ w.live →
      Act.Runs (k (some b)) (w.alloc b n) a w' → Act.Runs (.malloc n k) w a w'
  | free {b k} {w : World C} {a w'} : b ∈ w.live → Act.Runs k (w.free b) a w' →
      Act.Runs (.free b k) w a w'

/-- `MayUB m w`: some execution of `m` from `w` reaches undefined behaviour (inside running code, or
`free` of something that is not an allocated block).
(C++ semantics, no code of its own; some execution of a body is undefined) -/
inductive Act.MayUB {C α : Type} : Act C α → World C → Prop where
  | code {c k} {w : World C} : c.CanUB w.heap → Act.MayUB (.run c k) w
  | run {c k} {w : World C} {d : Config C} : Reach (c.start w.heap) d → d.Final →
      Act.MayUB k ⟨d.heap, w.live⟩ → Act.MayUB (.run c k) w
  | mallocFail {n k} {w : World C} : Act.MayUB (k none) w → Act.MayUB (.malloc n k) w
  | mallocOk {n k} {w : World C} (b : Nat) : b ≠ 0 → b ∉ w.live →
      Act.MayUB (k (some b)) (w.alloc b n) → Act.MayUB (.malloc n k) w
  | badFree {b k} {w : World C} : b ∉ w.live → Act.MayUB (.free b k) w
  | free {b k} {w : World C} : b ∈ w.live → Act.MayUB k (w.free b) → Act.MayUB (.free b k) w

/-- `m.wp Q w`: every execution of `m` from `w` (every schedule, every outcome of every
`malloc`) is free of undefined behaviour, terminates, and ends in a state satisfying `Q`.
(C++ semantics, no code of its own; all executions of a body) -/
def Act.wp {C α : Type} : Act C α → (α → World C → Prop) → World C → Prop
  | .ret a, Q, w => Q a w
  | .run c k, Q, w => AllSched (fun h => k.wp Q ⟨h, w.live⟩) (c.start w.heap)
  | .malloc n k, Q, w => (k none).wp Q w ∧
      ∀ b, b ≠ 0 → b ∉ w.live → (k (some b)).wp Q (w.alloc b n)
  | .free b k, Q, w => b ∈ w.live ∧ k.wp Q (w.free b)

/-- `m.NoFail P`: in every execution in which no `malloc` returns null the result satisfies `P`.
(The control flow of a program depends on the outcome of its `malloc`s only.)
(C++ semantics, no code of its own; executions in which no allocation (inc/otfft_complex.h:242-252) fails) -/
def Act.NoFail {C α : Type} (P : α → Prop) : Act C α → Prop
  | .ret a => P a
  | .run _ k => k.NoFail P
  | .malloc _ k => ∀ b, (k (some b)).NoFail P
  | .free _ k => k.NoFail P

end OTFFT
