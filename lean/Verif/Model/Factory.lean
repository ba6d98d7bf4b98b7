/-
CPU detection, factory and deleter of src/otfft.cpp.
-/
import Mathlib.Logic.Basic

namespace OTFFT

/-- What the hardware answers: `cpuid` leaves 0, 1 and 7 (eax, ebx, ecx, edx of each) and `XCR0`.
`maxLeaf` is the signed `cpu_info_0[0]`. (what `cpuid` and `xgetbv` return, src/otfft.cpp:58-92) -/
structure Cpu where
  maxLeaf : Int
  ebx1 : BitVec 32
  ecx1 : BitVec 32
  edx1 : BitVec 32
  ebx7 : BitVec 32
  xcr0 : BitVec 64
deriving DecidableEq

/-- `struct sysinfo` (src/otfft.cpp:195-206), the fields that are computed from CPUID. -/
structure SysInfo where
  xsave : Bool := false
  sse : Bool := false
  sse2 : Bool := false
  sse3 : Bool := false
  ssse3 : Bool := false
  sse41 : Bool := false
  sse42 : Bool := false
  avx : Bool := false
  avx2 : Bool := false
  fma : Bool := false
deriving DecidableEq

/-- Result of running native code that may use an instruction the CPU refuses.
(src/otfft.cpp:101-137, 288-413) -/
inductive Run (α : Type) where
  | ok (a : α)
  /-- `throw std::domain_error` -/
  | domainError
  /-- the CPU raises an invalid-opcode fault -/
  | illegalInstruction
deriving DecidableEq

/-- `XGETBV(0)` (src/otfft.cpp:83-92): the instruction faults (#UD) unless the operating system
has set CR4.OSXSAVE, which CPUID shows in bit 27 of leaf-1 ECX. -/
def xgetbv (c : Cpu) : Run (BitVec 64) :=
  if c.ecx1.getLsbD 27 then .ok c.xcr0 else .illegalInstruction

/-- `sysinfo::sysinfo()` (src/otfft.cpp:101-137); `CPU_CORES` is not modelled. -/
def sysinfo (c : Cpu) : Run SysInfo :=
  if c.maxLeaf > 0 then
    match xgetbv c with
    | .ok xcr =>
      let xsave := ((c.ecx1 &&& 0x04000000#32) != 0) && ((xcr &&& 6#64) == 6)
      let i : SysInfo :=
        { xsave := xsave
          sse := (c.edx1 &&& 0x02000000#32) != 0
          sse2 := (c.edx1 &&& 0x04000000#32) != 0
          sse3 := (c.ecx1 &&& 0x00000001#32) != 0
          ssse3 := (c.ecx1 &&& 0x00000200#32) != 0
          sse41 := (c.ecx1 &&& 0x00080000#32) != 0
          sse42 := (c.ecx1 &&& 0x00100000#32) != 0
          avx := ((c.ecx1 &&& 0x10000000#32) != 0) && ((c.ecx1 &&& 0x04000000#32) != 0)
            && ((c.ecx1 &&& 0x08000000#32) != 0) && xsave
          fma := (c.ecx1 &&& 0x00001000#32) != 0 }
      if c.maxLeaf ≥ 7 ∧ xsave then
        .ok { i with avx2 := (c.ebx7 &&& 0x00000020#32) != 0 }
      else .ok i
    | .domainError => .domainError
    | .illegalInstruction => .illegalInstruction
  else .ok {}

/-- The three back ends (CMakeLists.txt:184-214). -/
inductive Isa where
  | sse2 | avx | avx2
deriving DecidableEq

/-- `OTFFT_WITH_SSE2`, `OTFFT_WITH_AVX`, `OTFFT_WITH_AVX2` (CMakeLists.txt:87-95). -/
structure Build where
  withSSE2 : Bool
  withAVX : Bool
  withAVX2 : Bool
deriving DecidableEq

/-- `enum class OptimizationType` (inc/otfft.h:35-47). -/
inductive OptType where
  | auto | sse2 | avx | avx2
deriving DecidableEq

/-- Which class is created (`createComplexFFT`, `createRealFFT`, `createDCT`,
`createBluesteinFFT`). (the four functions of src/otfft.cpp:288-413) -/
inductive Family where
  | complex | real | dct | bluestein
deriving DecidableEq

/-- A live object: the class and the back end whose code it runs.
(what `new` in src/otfft_algo.cpp:1090-1111 makes) -/
structure Obj where
  kind : Family
  isa : Isa
  n : Int
deriving DecidableEq

/-- `Factory::createComplexFFT` (src/otfft.cpp:286-315), `createRealFFT` (317-348), `createDCT`
(350-382), `createBluesteinFFT` (384-413). The four bodies are the same text up to the class name,
which is the parameter `k`. -/
def create (b : Build) (c : Cpu) (k : Family) (n : Int) (t : OptType) : Run Obj :=
  match sysinfo c with
  | .ok i =>
    if b.withAVX2 && (i.avx2 && (t == .auto || t == .avx2)) then .ok ⟨k, .avx2, n⟩
    else if b.withAVX && (i.avx && (t == .auto || t == .avx)) then .ok ⟨k, .avx, n⟩
    else if b.withSSE2 && (i.sse2 && (t == .auto || t == .sse2)) then .ok ⟨k, .sse2, n⟩
    else .domainError
  | .domainError => .domainError
  | .illegalInstruction => .illegalInstruction

/-- `unique_ptr_delete::operator()` for the three interface classes (src/otfft.cpp:211-284; the
bodies are the same text): the back end whose `unique_ptr_deleter` (src/otfft_algo.cpp:1075-1088,
`delete raw_pointer`) is called. -/
def deleterOf (b : Build) (c : Cpu) : Run Isa :=
  match sysinfo c with
  | .ok i =>
    if b.withAVX2 && i.avx2 then .ok .avx2
    else if b.withAVX && i.avx then .ok .avx
    else if b.withSSE2 && i.sse2 then .ok .sse2
    else .domainError
  | .domainError => .domainError
  | .illegalInstruction => .illegalInstruction

/-- The heap of live objects, by address. `delete p` on a live object runs the destructor of its
dynamic class (`virtual ~ComplexFFT() = default`, inc/otfft.h:55, 102, 149) and removes it;
`delete` of a dead address is undefined behaviour (`none`). -/
def deleteObj (b : Build) (c : Cpu) (live : Nat → Option Obj) (p : Nat) :
    Run (Option (Nat → Option Obj)) :=
  match deleterOf b c with
  | .ok _ => .ok (match live p with
    | some _ => some (fun q => if q = p then none else live q)
    | none => none)
  | .domainError => .domainError
  | .illegalInstruction => .illegalInstruction

end OTFFT
