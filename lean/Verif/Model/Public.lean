/-
The whole way through the public interface: factory, smart pointer, object, deleter (src/otfft.cpp,
src/otfft_algo.cpp:1075-1111, inc/otfft.h:182-208).
-/
import Verif.Model.Api
import Verif.Model.Factory
import Verif.Model.Simd
import Verif.Spec.Cpu

namespace OTFFT

/-- Objects on the heap: `new X(n)` (src/otfft_algo.cpp:1090-1111) allocates the object itself, runs the constructor,
and frees the block again when that throws; `delete p` (1075-1088) runs the destructor and frees the block. -/
def Cls.boxed {C : Type} (X : Cls C) : Cls C where
  Obj := Nat × X.Obj
  Call := X.Call
  create n := .malloc 0 fun p =>
    match p with
    | none => .ret none
    | some b => do
      let r ← X.create n
      match r with
      | none => .free b (.ret none)
      | some o => .ret (some (b, o))
  setup o n := do
    let r ← X.setup o.2 n
    .ret ((o.1, r.1), r.2)
  call o c := X.call o.2 c
  destroy o := do
    X.destroy o.2
    .free o.1 (.ret ())

/-- How a client program that uses one smart pointer may end.
(how a program built on src/otfft.cpp:286-413 can end) -/
inductive Outcome where
  /-- the CPU refuses an instruction -/
  | illegalInstruction
  /-- the factory threw `std::domain_error` -/
  | domainError
  /-- the deleter threw out of the destructor of the smart pointer: `std::terminate` -/
  | terminated
  /-- the program came to its end; `ok` says that the constructor and the last `setup` did not throw -/
  | ended (ok : Bool)
deriving DecidableEq

/-- whether the CPU executes the code of a back end -/
instance (c : Cpu) (i : Isa) : Decidable (Spec.canRun c i) := by
  cases i <;> unfold Spec.canRun <;> try unfold Spec.osYmm
  all_goals infer_instance

/-- `auto p = Factory::createX(n, t);`, the operations `ops` on `*p`, end of the scope of `p`. `k` says which class,
`X i` is the class as compiled for the back end `i`; the program may be a different one for each back end.
(src/otfft.cpp:286-413 create, 211-284 the deleter of the smart pointers) -/
def publicLife {C : Type} (b : Build) (c : Cpu) (k : Family) (X : Isa → Cls C) (n : Int) (t : OptType)
    (ops : ∀ i, List (Op C (X i).Call)) : Act C Outcome :=
  match create b c k n t with
  | .illegalInstruction => .ret .illegalInstruction
  | .domainError => .ret .domainError
  | .ok o =>
    if Spec.canRun c o.isa then do
      let r ← (X o.isa).boxed.use n (ops o.isa)
      match r with
      | none => .ret (.ended false)
      | some s =>
        match deleterOf b c with
        | .illegalInstruction => .ret .illegalInstruction
        | .domainError => .ret .terminated
        | .ok d =>
          if Spec.canRun c d then do
            (X o.isa).boxed.destroy s.1
            .ret (.ended s.2)
          else .ret .illegalInstruction
    else .ret .illegalInstruction

/-- Which instruction set extensions the compiler was told to use for the files of a back end (CMakeLists.txt:253-347;
depends on the compiler). -/
abbrev Flags := Isa → Target

end OTFFT
