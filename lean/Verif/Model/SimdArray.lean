/-
Client programs that use the container `simd_array` of the public header directly (inc/otfft_complex.h:258-282).
-/
import Verif.Model.Objects

namespace OTFFT

/-- A block of a C++ function with variables `v0, v1, …` of type `simd_array<T>`. What it does next may depend on whether
a constructor or `setup` threw: the second continuation is the handler (`done` = the exception leaves the block, which
destroys the variables like the normal end does). -/
inductive ArrProg (C : Type) where
  /-- end of the block: destructors, in the reverse order of construction (inc/otfft_complex.h:268) -/
  | done
  /-- `simd_array<T> v;` (262) -/
  | empty (next : ArrProg C)
  /-- `simd_array<T> v(n);` (263-266) -/
  | make (n : Int) (next threw : ArrProg C)
  /-- `vi.setup(n)` (270-275) -/
  | setup (i : Nat) (n : Int) (next threw : ArrProg C)
  /-- `vi.destroy()` (277) -/
  | destroy (i : Nat) (next : ArrProg C)
  /-- `vi[j] = x` (279) -/
  | store (i j : Nat) (x : C) (next : ArrProg C)
  /-- `simd_array<T> v(vi);`: the implicit copy constructor copies the pointer -/
  | copy (i : Nat) (next : ArrProg C)
  /-- `vi = vj`: the implicit assignment copies the pointer -/
  | assign (i j : Nat) (next : ArrProg C)

/-- assignment of a variable -/
def setVar (v : Nat → SArr) (i : Nat) (p : SArr) : Nat → SArr := fun k => if k = i then p else v k

/-- the destructors of the variables `v(k-1), …, v0` (inc/otfft_complex.h:268) -/
def dropAll (C : Type) (v : Nat → SArr) : Nat → Act C Unit
  | 0 => .ret ()
  | k + 1 => do
    SArr.release C (v k)
    dropAll C v k

/-- the execution of a block with `k` variables `v` (inc/otfft_complex.h:262-282) -/
def ArrProg.run {C : Type} : ArrProg C → Nat → (Nat → SArr) → Act C Unit
  | .done, k, v => dropAll C v k
  | .empty next, k, v => next.run (k + 1) (setVar v k none)
  | .make n next threw, k, v => do
    let p ← SArr.setup C none n
    match p with
    | none => threw.run k v
    | some b => next.run (k + 1) (setVar v k (some b))
  | .setup i n next threw, k, v => do
    let p ← SArr.setup C (v i) n
    match p with
    | none => threw.run k (setVar v i none)
    | some b => next.run k (setVar v i (some b))
  | .destroy i next, k, v => do
    SArr.release C (v i)
    next.run k (setVar v i none)
  | .store i j x next, k, v => do
    Act.exec [[.store ((v i).ptr + j).loc x (.ret ())]]
    next.run k v
  | .copy i next, k, v => next.run (k + 1) (setVar v k (v i))
  | .assign i j next, k, v => next.run k (setVar v i (v j))

/-- the whole block (a scope; destructors run at its end, inc/otfft_complex.h:268) -/
def ArrProg.block {C : Type} (p : ArrProg C) : Act C Unit := p.run 0 fun _ => none

end OTFFT
