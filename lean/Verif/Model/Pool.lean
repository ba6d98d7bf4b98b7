/-
Client programs that use many objects of all public classes at once.
-/
import Verif.Model.Api

noncomputable section

namespace OTFFT

variable {F : Type} [DArith F]

/-- the public classes (inc/otfft.h:50-180, src/otfft_base.h:15-35, 96-119) -/
inductive Kind where
  | complex | real | dct | bluestein | fft0 | dct0
deriving DecidableEq

/-- the class (src/otfft_base.h:15-180) -/
def Kind.cls (C : Type) [CArith F C] (thr : Thr) : Kind → Cls C
  | .complex => complexFFT C thr
  | .real => realFFT C thr
  | .dct => realDCT C thr
  | .bluestein => bluesteinFFT C thr
  | .fft0 => rawFFT C thr
  | .dct0 => rawDCT C thr

/-- An object of some class, and what its user knows about it: the argument of the last `setup` or constructor
(0 if it was negative), `none` when that `setup` threw.
(a variable of the client of type `std::unique_ptr<X>`, inc/otfft_fwd.h:17-19) -/
structure Slot (C : Type) [CArith F C] (thr : Thr) where
  kind : Kind
  obj : (kind.cls C thr).Obj
  len : Option Nat

/-- a transform call on an object (whose static type has to be the right one)
(`p->fwd(…)`, inc/otfft.h:52-180) -/
def Slot.call {C : Type} [CArith F C] {thr : Thr} (s : Slot C thr) (k : Kind) (c : (k.cls C thr).Call) : Code C :=
  if h : s.kind = k then (s.kind.cls C thr).call s.obj (h ▸ c) else [[.ub]]

/-- the pointer variables of a client program; `none` = null (the variables of the client) -/
abbrev Vars (C : Type) [CArith F C] (thr : Thr) := Nat → Option (Slot C thr)

/-- no object at all (the variables of the client at the start) -/
def Vars.empty {C : Type} [CArith F C] {thr : Thr} : Vars C thr := fun _ => none

/-- assignment to a variable (`p = …`, `p.reset()`) -/
def Vars.set {C : Type} [CArith F C] {thr : Thr} (σ : Vars C thr) (s : Nat) (v : Option (Slot C thr)) : Vars C thr :=
  fun t => if t = s then v else σ t

/-- A client program. What it does next may depend on whether a constructor or a `setup` threw. (What it stores and
which calls it makes may depend on data it has read: every execution of such a program is an execution of one of
these.) (a program that uses the library as README.md:40-110 shows) -/
inductive Client (C : Type) [CArith F C] (thr : Thr) where
  | done
  /-- `s = new X(n)`; `s` stays as it is when the constructor throws -/
  | new (s : Nat) (k : Kind) (n : Int) (ok threw : Client C thr)
  /-- `s->setup(n)` -/
  | setup (s : Nat) (n : Int) (ok threw : Client C thr)
  /-- `s->call(…)` -/
  | call (s : Nat) (k : Kind) (c : (k.cls C thr).Call) (next : Client C thr)
  /-- the same for an object that was made by somebody else and is shared -/
  | shared (s : Nat) (k : Kind) (c : (k.cls C thr).Call) (next : Client C thr)
  /-- `delete s; s = 0` -/
  | delete (s : Nat) (next : Client C thr)
  /-- `*p = v` in the client's own memory -/
  | store (p : Ptr) (v : C) (next : Client C thr)

/-- The execution of a client program with the variables `σ` of its own; `sh` are the shared ones. The result are its
variables at the end.
(the meaning of such a program: construction src/otfft_algo.cpp:1090-1111, deletion 1075-1088, calls inc/otfft.h:52-180) -/
def Client.run {C : Type} [CArith F C] {thr : Thr} (sh : Vars C thr) : Client C thr → Vars C thr → Act C (Vars C thr)
  | .done, σ => .ret σ
  | .new s k n ok threw, σ => do
    let r ← (k.cls C thr).create n
    match r with
    | none => threw.run sh σ
    | some o => ok.run sh (σ.set s (some ⟨k, o, some n.toNat⟩))
  | .setup s n ok threw, σ =>
    match σ s with
    | none => do
      Act.crash
      .ret σ
    | some v => do
      let r ← (v.kind.cls C thr).setup v.obj n
      if r.2 then threw.run sh (σ.set s (some ⟨v.kind, r.1, none⟩))
      else ok.run sh (σ.set s (some ⟨v.kind, r.1, some n.toNat⟩))
  | .call s k c next, σ =>
    match σ s with
    | none => do
      Act.crash
      .ret σ
    | some v => do
      Act.exec (v.call k c)
      next.run sh σ
  | .shared s k c next, σ =>
    match sh s with
    | none => do
      Act.crash
      .ret σ
    | some v => do
      Act.exec (v.call k c)
      next.run sh σ
  | .delete s next, σ =>
    match σ s with
    | none => next.run sh σ
    | some v => do
      (v.kind.cls C thr).destroy v.obj
      next.run sh (σ.set s none)
  | .store p v next, σ => do
    Act.exec [[.store p.loc v (.ret ())]]
    next.run sh σ

end OTFFT
