/-
A process that makes objects, then starts several threads that use them.
-/
import Verif.Spec.Pool
import Verif.Model.Threads

namespace OTFFT

variable {F C : Type} [DArith F] [CArith F C] {thr : Thr}

/-- A thread to be started: its program, the cells it may write, and the variables of the starting thread it takes
over (nobody else uses them any more). -/
structure Job (C : Type) [CArith F C] (thr : Thr) where
  prog : Client C thr
  P : Set Loc
  takes : Set Nat

open Classical in
/-- the variables in `V` only -/
noncomputable def Vars.only (σ : Vars C thr) (V : Set Nat) : Vars C thr := fun s => if s ∈ V then σ s else none

/-- what is left for everybody -/
noncomputable def Vars.left (σ : Vars C thr) (js : List (Job C thr)) : Vars C thr := σ.only {s | ∀ j ∈ js, s ∉ j.takes}

/-- The action of a thread: it uses the objects it takes over as its own, and may use the objects that are left as
shared ones. -/
noncomputable def Job.act (σ : Vars C thr) (js : List (Job C thr)) (j : Job C thr) : Act C (Vars C thr) :=
  j.prog.run (σ.left js) (σ.only j.takes)

/-- all threads have been started -/
noncomputable def forked (σ : Vars C thr) (js : List (Job C thr)) (w : World C) : Process C (Vars C thr) :=
  ⟨js.map fun j => Thread.init (j.act σ js), w⟩

/-- The rules for starting threads. `w0` is the memory before any object was made, `σ` and `w` the variables and the
memory when the threads are started, `Rd` cells that are only read. Every thread writes cells of the client that no
other thread reads or writes, no object is taken over by two threads, and every thread by itself respects the
preconditions of the API (of the objects that are left, only those without a work area may be used). -/
structure ForkOK [Inhabited C] (w0 : World C) (σ : Vars C thr) (w : World C) (Rd : Set Loc) (js : List (Job C thr)) : Prop where
  cells : ∀ j ∈ js, ∀ l ∈ j.P ∪ Rd, l.1 ∈ w0.live
  read : ∀ j ∈ js, Disjoint j.P Rd
  write : ∀ (i k : Nat) (a b : Job C thr), i ≠ k → js[i]? = some a → js[k]? = some b → Disjoint a.P b.P
  takes : ∀ (i k : Nat) (a b : Job C thr), i ≠ k → js[i]? = some a → js[k]? = some b → Disjoint a.takes b.takes
  ok : ∀ j ∈ js, j.prog.OK j.P Rd (σ.left js).known (σ.only j.takes).known w.heap

/-- Classes and lengths for which a transform stores intermediate results in the work area of the object
(a `ComplexFFT` of length 2, 3, 4, 5 or 8 works in place; length 1 is trivial). -/
def Kind.usesWork : Kind → Nat → Prop
  | .complex, n => n ≠ 2 ∧ n ≠ 3 ∧ n ≠ 4 ∧ n ≠ 5 ∧ n ≠ 8
  | .dct, n => n ≠ 1
  | .bluestein, n => n ≠ 1
  | _, _ => False

/-- the blocks of `u` are blocks of `w`, with the same contents -/
structure World.Part (u w : World C) : Prop where
  live : u.live ⊆ w.live
  heap : ∀ l : Loc, l.1 ∈ u.live → u.heap l = w.heap l

end OTFFT
