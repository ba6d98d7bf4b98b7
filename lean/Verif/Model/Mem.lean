/-
Memory, straight-line programs, OpenMP phases and their interleaving semantics.

Nothing in this file is specific to one function of /repo; it fixes what a C++ program of the
kind found in /repo/src (loads and stores through `complex_t*`/`double*` inside serial loops and
inside `#pragma omp for` loops) means.
-/
import Mathlib.Data.Set.Basic
import Mathlib.Data.Set.Lattice

namespace OTFFT

/-- A memory location: allocation block and element index inside that block.
(C++ semantics, no code of its own; an object of type `complex_t`, inc/otfft_complex.h:76-78) -/
abbrev Loc := Nat × Nat

/-- `complex_t*` / `double*` (inc/otfft_types.h `complex_vector`, `double_vector`):
a block and an element offset.  Simplification: offsets are natural numbers, the code never forms
a pointer before the start of its block. -/
structure Ptr where
  buf : Nat
  off : Nat
deriving DecidableEq, Repr

/-- pointer arithmetic `p + n` -/
instance : HAdd Ptr Nat Ptr := ⟨fun p n => ⟨p.buf, p.off + n⟩⟩

/-- The location `*p`. (C++ semantics, no code of its own; `*p`) -/
def Ptr.loc (p : Ptr) : Loc := (p.buf, p.off)

@[simp] theorem Ptr.add_buf (p : Ptr) (n : Nat) : (p + n).buf = p.buf := rfl
@[simp] theorem Ptr.add_off (p : Ptr) (n : Nat) : (p + n).off = p.off + n := rfl
@[simp] theorem Ptr.loc_add (p : Ptr) (n : Nat) : (p + n).loc = (p.buf, p.off + n) := rfl
theorem Ptr.add_add (p : Ptr) (n m : Nat) : p + n + m = p + (n + m) := by
  show Ptr.mk _ _ = Ptr.mk _ _; simp [Nat.add_assoc]
theorem Ptr.ext' {p q : Ptr} (h : p.buf = q.buf) (h' : p.off = q.off) : p = q := by
  cases p; cases q; simp_all
theorem Ptr.add_congr (p : Ptr) {n m : Nat} (h : n = m) : p + n = p + m := by rw [h]
@[simp] theorem Ptr.add_zero (p : Ptr) : p + 0 = p := rfl

/-- Heap: `none` = not allocated, `some none` = allocated but never written,
`some (some v)` = holds `v`. One cell per array element: a cell of a `complex_t` array holds one
complex number, a cell of a `double` array holds a number whose real part is the double.
(C++ semantics, no code of its own; the contents of memory) -/
abbrev Heap (C : Type) := Loc → Option (Option C)

/-- C++ semantics, no code of its own; the effect of an assignment, e.g. `setpz`, src/otfft_misc.h:252-262 -/
def Heap.set {C : Type} (h : Heap C) (l : Loc) (v : C) : Heap C :=
  fun l' => if l' = l then some (some v) else h l'

@[simp] theorem Heap.set_same {C} (h : Heap C) (l : Loc) (v : C) : h.set l v l = some (some v) := by
  simp [Heap.set]
theorem Heap.set_ne {C} (h : Heap C) {l l' : Loc} (v : C) (hne : l' ≠ l) :
    h.set l v l' = h l' := by simp [Heap.set, hne]

/-- A straight-line task: loads, stores, a result, or undefined behaviour.
(C++ semantics, no code of its own; a sequence of loads and stores, e.g. `getpz`/`setpz`, src/otfft_misc.h:244-281) -/
inductive Prog (C : Type) (α : Type) where
  | ret (a : α)
  | load (l : Loc) (k : C → Prog C α)
  | store (l : Loc) (v : C) (k : Prog C α)
  | ub

/-- Sequential composition. (C++ semantics, no code of its own; `;`) -/
def Prog.bind {C α β : Type} : Prog C α → (α → Prog C β) → Prog C β
  | .ret a, f => f a
  | .load l k, f => .load l fun v => (k v).bind f
  | .store l v k, f => .store l v (k.bind f)
  | .ub, _ => .ub

/-- Tasks of a loop: one per iteration. (e.g. the body of the loop src/otfft_avxdif4omp.h:37-65) -/
abbrev Task (C : Type) := Prog C Unit

/-- A piece of code: phases separated by barriers; the tasks of one phase run concurrently.
A serial statement is a phase with a single task.
(C++ semantics, no code of its own; loops separated by barriers, e.g. src/otfft_algo.cpp:303-315) -/
abbrev Code (C : Type) := List (List (Task C))

/-- The loop over the given iterations: `par = true` is `#pragma omp for` (all iterations in one
phase, implicit barrier at the end), `par = false` is an ordinary serial loop.
(e.g. src/otfft_algo.cpp:292-301 (serial), 305-312 (parallel)) -/
def Code.loop {C : Type} (par : Bool) (ts : List (Task C)) : Code C :=
  if par then [ts] else ts.map fun t => [t]

/-- iterations of `for (i = 0; i < n; i++)` (e.g. src/otfft_algo.cpp:293) -/
def tasks1 {C : Type} (n : Nat) (f : Nat → Task C) : List (Task C) := (List.range n).map f

/-- iterations of `for (p = 0; p < m; p++) for (i = 0; i < k; i++)`, in order
(e.g. src/otfft_avxdif4.h:38-42) -/
def tasks2 {C : Type} (m k : Nat) (f : Nat → Nat → Task C) : List (Task C) :=
  (List.range m).flatMap fun p => (List.range k).map fun i => f p i

/-- number of iterations of `for (q = 0; q < s; q += L)` (e.g. src/otfft_avxdif4.h:42) -/
def cnt (s L : Nat) : Nat := (s + L - 1) / L

/-- Run all tasks of all phases one after the other in one thread.
(C++ semantics, no code of its own; execution by one thread) -/
def Code.toProg {C : Type} : Code C → Task C
  | [] => .ret ()
  | ts :: c => ts.foldr (fun t k => t.bind fun _ => k) (Code.toProg c)

/-! ### Interleaving semantics -/

/-- A running program: the tasks of the current phase, the remaining phases, the heap.
(OpenMP semantics of e.g. src/otfft_algo.cpp:303-315) -/
structure Config (C : Type) where
  cur : List (Task C)
  rest : Code C
  heap : Heap C

/-- One step of one task. (C++ semantics, no code of its own; one load or store) -/
inductive TStep {C : Type} : Task C → Heap C → Task C → Heap C → Prop where
  | load {h : Heap C} {l v k} : h l = some (some v) → TStep (.load l k) h (k v) h
  | store {h : Heap C} {l v k} : h l ≠ none → TStep (.store l v k) h k (h.set l v)

/-- The next action of the task is undefined behaviour: explicit, a load of a cell that is not
allocated or not initialised, or a store to a cell that is not allocated.
(C++ semantics, no code of its own; out of bounds, uninitialised or overflowing step) -/
inductive Prog.Bad {C : Type} : Task C → Heap C → Prop where
  | ub {h} : Prog.Bad .ub h
  | load {h : Heap C} {l k} : (∀ v, h l ≠ some (some v)) → Prog.Bad (.load l k) h
  | store {h : Heap C} {l v k} : h l = none → Prog.Bad (.store l v k) h

/-- Next access of a task: location and whether it is a write.
(C++ semantics, no code of its own; the cell the next step touches) -/
def Prog.access {C α : Type} : Prog C α → Option (Loc × Bool)
  | .load l _ => some (l, false)
  | .store l _ _ => some (l, true)
  | _ => none

/-- One step of a configuration: some task moves, or everybody passes the barrier.
(OpenMP semantics: one step of one thread, or a barrier, of e.g. src/otfft_algo.cpp:303-315) -/
inductive CStep {C : Type} : Config C → Config C → Prop where
  | task {ts rest h p p' h'} (i : Nat) : ts[i]? = some p → TStep p h p' h' →
      CStep ⟨ts, rest, h⟩ ⟨ts.set i p', rest, h'⟩
  | barrier {ts ph rest h} : (∀ t ∈ ts, t = .ret ()) → CStep ⟨ts, ph :: rest, h⟩ ⟨ph, rest, h⟩

/-- Two tasks are about to access the same location and at least one access is a write.
(OpenMP semantics: two conflicting unordered accesses) -/
def Config.Race {C : Type} (c : Config C) : Prop :=
  ∃ (i j : Nat) (p q : Task C) (l : Loc) (a b : Bool), i ≠ j ∧ c.cur[i]? = some p ∧ c.cur[j]? = some q ∧
    Prog.access p = some (l, a) ∧ Prog.access q = some (l, b) ∧ (a = true ∨ b = true)

/-- Undefined behaviour in a configuration: a task is about to do something undefined, or there
is a data race. (C++ semantics, no code of its own; race or bad step) -/
def Config.UB {C : Type} (c : Config C) : Prop :=
  (∃ t ∈ c.cur, t.Bad c.heap) ∨ c.Race

/-- Everything has finished. (C++ semantics, no code of its own; end of the program) -/
def Config.Final {C : Type} (c : Config C) : Prop :=
  (∀ t ∈ c.cur, t = .ret ()) ∧ c.rest = []

/-- Under every schedule: never undefined behaviour, always terminates, and every final heap
satisfies `Q`. (semantics: a statement about all interleavings) -/
inductive AllSched {C : Type} (Q : Heap C → Prop) : Config C → Prop where
  | intro {c : Config C} (noUB : ¬ c.UB) (post : c.Final → Q c.heap)
      (next : ∀ c', CStep c c' → AllSched Q c') : AllSched Q c

/-- Initial configuration of a piece of code. (semantics: the initial state) -/
def Code.start {C : Type} (c : Code C) (h : Heap C) : Config C := ⟨[], c, h⟩

/-- Reachability (used for undefined-behaviour witnesses). (semantics: reachability) -/
inductive Reach {C : Type} : Config C → Config C → Prop where
  | refl (c) : Reach c c
  | step {a b c} : CStep a b → Reach b c → Reach a c

/-- Some schedule reaches undefined behaviour. (semantics: some interleaving is undefined) -/
def Code.CanUB {C : Type} (c : Code C) (h : Heap C) : Prop :=
  ∃ d, Reach (c.start h) d ∧ d.UB

/-! ### Gather / compute / scatter

Straight-line SIMD kernel bodies load operands, compute, and store results. -/

/-- Load `n` cells in order. (`getpz` etc., src/otfft_misc.h:244-250) -/
def loadN {C α : Type} : (n : Nat) → (Fin n → Ptr) → ((Fin n → C) → Prog C α) → Prog C α
  | 0, _, k => k Fin.elim0
  | n+1, p, k => .load (p 0).loc fun v => loadN n (fun i => p i.succ) fun vs =>
      k (fun i => Fin.cases v vs i)

/-- Store `n` cells in order. (`setpz` etc., src/otfft_misc.h:252-262) -/
def storeN {C α : Type} : (n : Nat) → (Fin n → Ptr) → (Fin n → C) → Prog C α → Prog C α
  | 0, _, _, k => k
  | n+1, p, v, k => .store (p 0).loc (v 0) (storeN n (fun i => p i.succ) (fun i => v i.succ) k)

/-- Load `a` operands of `L` lanes each. (e.g. src/otfft_avxdif4.h:49-52) -/
def loadM {C α : Type} (L : Nat) : (a : Nat) → (Fin a → Fin L → Ptr) →
    ((Fin a → Fin L → C) → Prog C α) → Prog C α
  | 0, _, k => k Fin.elim0
  | a+1, p, k => loadN L (p 0) fun v => loadM L a (fun i => p i.succ) fun vs =>
      k (fun i => Fin.cases v vs i)

/-- Store `k` results of `L` lanes each. (e.g. src/otfft_avxdif4.h:60-75) -/
def storeM {C α : Type} (L : Nat) : (b : Nat) → (Fin b → Fin L → Ptr) →
    (Fin b → Fin L → C) → Prog C α → Prog C α
  | 0, _, _, k => k
  | b+1, p, v, k => storeN L (p 0) (v 0)
      (storeM L b (fun i => p i.succ) (fun i => v i.succ) k)

/-- A kernel body: load data operands `rd` and table operands `tw`, compute `f`, store to `wr`.
Simplification: all loads of the body are issued before its stores (the code interleaves loads of
read-only tables with arithmetic, never with stores to the same array), and table loads hoisted
out of an inner loop by the code are re-issued per iteration. (e.g. src/otfft_avxdif4.h:49-75) -/
def bfly {C : Type} {L a b c : Nat} (rd : Fin a → Fin L → Ptr) (tw : Fin b → Fin L → Ptr)
    (wr : Fin c → Fin L → Ptr)
    (f : (Fin a → Fin L → C) → (Fin b → Fin L → C) → (Fin c → Fin L → C)) : Task C :=
  loadM L a rd fun x => loadM L b tw fun w => storeM L c wr (f x w) (.ret ())

/-- `getpz2(p)`, `getez4(p)`, `setpz2(p,·)`, `setez4(p,·)`: lane `l` at `p + l`
(src/otfft_misc.h:727-744, 1458-1470). -/
def vec (L : Nat) (p : Ptr) : Fin L → Ptr := fun l => p + l.val

/-- `duppz3(*p)`, `dupez5(*p)`: every lane loads `*p` (src/otfft_misc.h:869-873, 1093-1098). -/
def dup (L : Nat) (p : Ptr) : Fin L → Ptr := fun _ => p

end OTFFT
