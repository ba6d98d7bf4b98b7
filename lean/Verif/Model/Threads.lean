/-
Several client threads (std::thread) in one process, each running its own program.
-/
import Verif.Model.Act

namespace OTFFT

/-- A client thread: the team of OpenMP tasks it is running at the moment, the remaining phases of the code it is
running, and what it does after that. (threads of the client, README.md:85-109; no code of the library) -/
structure Thread (C α : Type) where
  cur : List (Task C)
  rest : Code C
  next : Act C α

/-- a thread that has not started yet (semantics of threads) -/
def Thread.init {C α : Type} (m : Act C α) : Thread C α := ⟨[], [], m⟩

/-- the thread has finished the code it was running (semantics of threads) -/
def Thread.Idle {C α : Type} (t : Thread C α) : Prop := (∀ p ∈ t.cur, p = .ret ()) ∧ t.rest = []

/-- One step of a thread on the memory of the process. (semantics of threads: one step) -/
inductive Thread.Step {C α : Type} : Thread C α → World C → Thread C α → World C → Prop where
  | code {cur rest next h live cur' rest' h'} : CStep ⟨cur, rest, h⟩ ⟨cur', rest', h'⟩ →
      Thread.Step ⟨cur, rest, next⟩ ⟨h, live⟩ ⟨cur', rest', next⟩ ⟨h', live⟩
  | start {cur c k w} : (∀ p ∈ cur, p = .ret ()) → Thread.Step ⟨cur, [], .run c k⟩ w ⟨[], c, k⟩ w
  | mallocFail {cur n k w} : (∀ p ∈ cur, p = .ret ()) → Thread.Step ⟨cur, [], .malloc n k⟩ w ⟨[], [], k none⟩ w
  | mallocOk {cur n k} {w : World C} (b : Nat) : (∀ p ∈ cur, p = .ret ()) → b ≠ 0 → b ∉ w.live →
      Thread.Step ⟨cur, [], .malloc n k⟩ w ⟨[], [], k (some b)⟩ (w.alloc b n)
  | free {cur b k} {w : World C} : (∀ p ∈ cur, p = .ret ()) → b ∈ w.live →
      Thread.Step ⟨cur, [], .free b k⟩ w ⟨[], [], k⟩ (w.free b)

/-- The thread by itself is about to do something undefined. (semantics of threads) -/
def Thread.UB {C α : Type} (t : Thread C α) (w : World C) : Prop :=
  Config.UB ⟨t.cur, t.rest, w.heap⟩ ∨ (t.Idle ∧ ∃ b k, t.next = .free b k ∧ b ∉ w.live)

/-- A process: its threads and its memory. (semantics of threads: all of them and the memory) -/
structure Process (C α : Type) where
  threads : List (Thread C α)
  mem : World C

/-- Some thread makes a step. (semantics of threads: interleaving) -/
inductive Process.Step {C α : Type} : Process C α → Process C α → Prop where
  | thread {ts w t t' w'} (i : Nat) : ts[i]? = some t → Thread.Step t w t' w' →
      Process.Step ⟨ts, w⟩ ⟨ts.set i t', w'⟩

/-- Undefined behaviour: of one thread; or two threads are about to access one location and one of the accesses is a
write; or one thread is about to free a block another one is about to access.
(semantics of threads: bad step or data race) -/
def Process.UB {C α : Type} (s : Process C α) : Prop :=
  (∃ t ∈ s.threads, t.UB s.mem) ∨
  (∃ (i j : Nat) (t u : Thread C α) (p q : Task C) (l : Loc) (a b : Bool), i ≠ j ∧ s.threads[i]? = some t ∧
    s.threads[j]? = some u ∧ p ∈ t.cur ∧ q ∈ u.cur ∧ Prog.access p = some (l, a) ∧ Prog.access q = some (l, b) ∧
    (a = true ∨ b = true)) ∨
  (∃ (i j : Nat) (t u : Thread C α) (q : Task C) (l : Loc) (a : Bool) (k : Act C α), i ≠ j ∧
    s.threads[i]? = some t ∧ s.threads[j]? = some u ∧ t.Idle ∧ t.next = .free l.1 k ∧ q ∈ u.cur ∧
    Prog.access q = some (l, a))

/-- All threads have ended; `as` are their results. (semantics of threads) -/
def Process.Ended {C α : Type} (s : Process C α) (as : List α) : Prop :=
  s.threads.length = as.length ∧
  ∀ (i : Nat) (t : Thread C α) (a : α), s.threads[i]? = some t → as[i]? = some a → t.Idle ∧ t.next = .ret a

/-- Under every interleaving of the threads: never undefined behaviour, all threads end, and then their results and
the memory satisfy `Q`. (semantics of threads: all interleavings) -/
inductive Process.All {C α : Type} (Q : List α → World C → Prop) : Process C α → Prop where
  | intro {s : Process C α} (noUB : ¬ s.UB) (post : ∀ as, s.Ended as → Q as s.mem)
      (live : (∃ as, s.Ended as) ∨ ∃ s', Process.Step s s')
      (next : ∀ s', Process.Step s s' → Process.All Q s') : Process.All Q s

/-- reachable (semantics of threads) -/
inductive Process.Reach {C α : Type} : Process C α → Process C α → Prop where
  | refl (s) : Process.Reach s s
  | step {a b c} : Process.Step a b → Process.Reach b c → Process.Reach a c

/-- some interleaving reaches undefined behaviour (semantics of threads) -/
def Process.CanUB {C α : Type} (s : Process C α) : Prop := ∃ s', Process.Reach s s' ∧ s'.UB

end OTFFT
