/-
What the x86 manuals say about running SSE2 / AVX / AVX2 code, independent of the code in /repo.
-/
import Verif.Model.Factory

namespace OTFFT.Spec
open OTFFT

/-- The operating system saves XMM and YMM state: OSXSAVE set, XCR0 bits 1 and 2 set. -/
def osYmm (c : Cpu) : Prop :=
  c.ecx1.getLsbD 27 = true ∧ c.xcr0.getLsbD 1 = true ∧ c.xcr0.getLsbD 2 = true

/-- Code of the given back end runs without an invalid-opcode fault. -/
def canRun (c : Cpu) : Isa → Prop
  | .sse2 => c.edx1.getLsbD 26 = true
  | .avx => osYmm c ∧ c.ecx1.getLsbD 28 = true
  | .avx2 => osYmm c ∧ c.ecx1.getLsbD 28 = true ∧ 7 ≤ c.maxLeaf ∧ c.ebx7.getLsbD 5 = true

/-- The back end is compiled into the library. -/
def builtIn (b : Build) : Isa → Prop
  | .sse2 => b.withSSE2 = true
  | .avx => b.withAVX = true
  | .avx2 => b.withAVX2 = true

/-- What detection is supposed to find: CPUID is available and the feature's bits are set. `AVX`
asks for XSAVE (bit 26), OSXSAVE (27), AVX (28) and XCR0 state; `AVX2` asks for XSAVE, XCR0 state
and leaf 7. -/
def detected (c : Cpu) : Isa → Prop
  | .sse2 => 0 < c.maxLeaf ∧ c.edx1.getLsbD 26 = true
  | .avx => 0 < c.maxLeaf ∧ c.ecx1.getLsbD 28 = true ∧ c.ecx1.getLsbD 26 = true ∧
      c.ecx1.getLsbD 27 = true ∧ c.xcr0.getLsbD 1 = true ∧ c.xcr0.getLsbD 2 = true
  | .avx2 => 7 ≤ c.maxLeaf ∧ c.ecx1.getLsbD 26 = true ∧
      c.xcr0.getLsbD 1 = true ∧ c.xcr0.getLsbD 2 = true ∧ c.ebx7.getLsbD 5 = true

/-- The request allows the back end. -/
def requested (t : OptType) (i : Isa) : Prop :=
  t = .auto ∨ (t = .sse2 ∧ i = .sse2) ∨ (t = .avx ∧ i = .avx) ∨ (t = .avx2 ∧ i = .avx2)

/-- Preference order: later is better. -/
def rank : Isa → Nat
  | .sse2 => 0
  | .avx => 1
  | .avx2 => 2

/-- Executing `XGETBV` is legal (or not attempted, on a CPU without leaf 1). -/
def probeOk (c : Cpu) : Prop := 0 < c.maxLeaf → c.ecx1.getLsbD 27 = true

end OTFFT.Spec
