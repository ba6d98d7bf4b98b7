/-
C27, C28, C29: instruction-set selection.
-/
import Mathlib.Tactic.ByContra
import Verif.Proof.FactoryLemmas

namespace OTFFT.Props
open OTFFT Spec

/-- C27 (success): the object returned runs a back end that is compiled in, detected and allowed by
the request, and no better back end qualifies. -/
theorem C27_create_sound (b : Build) (c : Cpu) (hp : probeOk c) (k : Family) (n : Int) (t : OptType)
    (o : Obj) (h : create b c k n t = .ok o) :
    o.kind = k ∧ o.n = n ∧ builtIn b o.isa ∧ detected c o.isa ∧ requested t o.isa ∧
      ∀ i, builtIn b i → detected c i → requested t i → rank i ≤ rank o.isa := by
  obtain ⟨si, e, h2, h1, h0⟩ := sysinfo_spec c hp
  unfold create at h
  rw [e] at h
  simp only at h
  split at h
  · rename_i hc
    cases h
    simp only [Bool.and_eq_true, Bool.or_eq_true, beq_iff_eq] at hc
    refine ⟨rfl, rfl, hc.1, h2.1 hc.2.1, ?_, ?_⟩
    · rcases hc.2.2 with h | h <;> simp [requested, h]
    · intro i _ _ _; cases i <;> simp [rank]
  · rename_i hc2
    split at h
    · rename_i hc
      cases h
      simp only [Bool.and_eq_true, Bool.or_eq_true, beq_iff_eq] at hc hc2
      refine ⟨rfl, rfl, hc.1, h1.1 hc.2.1, ?_, ?_⟩
      · rcases hc.2.2 with h | h <;> simp [requested, h]
      · intro i hb hd hr
        cases i with
        | sse2 => simp [rank]
        | avx => simp [rank]
        | avx2 =>
          exfalso; apply hc2
          refine ⟨hb, h2.2 hd, ?_⟩
          simpa [requested] using hr
    · rename_i hc1
      split at h
      · rename_i hc
        cases h
        simp only [Bool.and_eq_true, Bool.or_eq_true, beq_iff_eq] at hc hc1 hc2
        refine ⟨rfl, rfl, hc.1, h0.1 hc.2.1, ?_, ?_⟩
        · rcases hc.2.2 with h | h <;> simp [requested, h]
        · intro i hb hd hr
          cases i with
          | sse2 => simp [rank]
          | avx => exact absurd ⟨hb, h1.2 hd, by simpa [requested] using hr⟩ hc1
          | avx2 => exact absurd ⟨hb, h2.2 hd, by simpa [requested] using hr⟩ hc2
      · cases h

/-- C27 (failure): `std::domain_error` exactly when no compiled-in, detected back end is allowed by
the request; nothing else can happen. -/
theorem C27_create_throws_iff (b : Build) (c : Cpu) (hp : probeOk c) (k : Family) (n : Int)
    (t : OptType) :
    (create b c k n t = .domainError ↔ ∀ i, builtIn b i → detected c i → ¬ requested t i) ∧
    create b c k n t ≠ .illegalInstruction := by
  obtain ⟨si, e, h2, h1, h0⟩ := sysinfo_spec c hp
  unfold create
  rw [e]
  simp only
  have key : (∀ i, builtIn b i → detected c i → ¬ requested t i) ↔
      (¬ (b.withAVX2 && (si.avx2 && (t == .auto || t == .avx2))) = true ∧
       ¬ (b.withAVX && (si.avx && (t == .auto || t == .avx))) = true ∧
       ¬ (b.withSSE2 && (si.sse2 && (t == .auto || t == .sse2))) = true) := by
    simp only [Bool.and_eq_true, Bool.or_eq_true, beq_iff_eq, h2, h1, h0]
    constructor
    · intro h
      refine ⟨fun hc => h .avx2 hc.1 hc.2.1 ?_, fun hc => h .avx hc.1 hc.2.1 ?_,
        fun hc => h .sse2 hc.1 hc.2.1 ?_⟩
      all_goals simpa [requested] using hc.2.2
    · rintro ⟨a, b', c'⟩ i hb hd hr
      cases i with
      | sse2 => exact c' ⟨hb, hd, by simpa [requested] using hr⟩
      | avx => exact b' ⟨hb, hd, by simpa [requested] using hr⟩
      | avx2 => exact a ⟨hb, hd, by simpa [requested] using hr⟩
  rw [key]
  split
  · simp [*]
  · split
    · simp [*]
    · split
      · simp [*]
      · simp [*]

/-- C28 (faults): asking the factory for an object faults exactly when CPUID is usable and the
operating system has not set OSXSAVE (the factory executes `XGETBV` unconditionally). The answer
does not depend on the build, the class, the length or the requested instruction set. -/
theorem C28_create_faults_iff (b : Build) (c : Cpu) (k : Family) (n : Int) (t : OptType) :
    create b c k n t = .illegalInstruction ↔ 0 < c.maxLeaf ∧ c.ecx1.getLsbD 27 = false := by
  constructor
  · intro h
    by_contra hn
    have hp : probeOk c := by
      intro h0
      by_contra h1
      exact hn ⟨h0, by simpa using h1⟩
    obtain ⟨si, e, -⟩ := sysinfo_spec c hp
    unfold create at h
    rw [e] at h
    simp only at h
    split at h
    · cases h
    · split at h
      · cases h
      · split at h <;> cases h
  · rintro ⟨h0, h1⟩
    have e : sysinfo c = .illegalInstruction := by
      unfold sysinfo
      rw [if_pos h0]
      unfold xgetbv
      rw [if_neg (by rw [h1]; decide)]
    unfold create
    rw [e]

/-- C28 (execution): the back end of an object the factory returned is executable on this CPU and
operating system, with one exception: an AVX2 object on a CPU that reports AVX2 but not AVX. -/
theorem C28_chosen_runs_iff (b : Build) (c : Cpu) (k : Family) (n : Int) (t : OptType) (o : Obj)
    (h : create b c k n t = .ok o) :
    canRun c o.isa ↔ (o.isa = .avx2 → c.ecx1.getLsbD 28 = true) := by
  have hp : probeOk c := by
    intro h0
    by_contra h1
    have := (C28_create_faults_iff b c k n t).2 ⟨h0, by simpa using h1⟩
    rw [this] at h
    cases h
  obtain ⟨_, _, _, hd, _⟩ := C27_create_sound b c hp k n t o h
  revert hd
  generalize o.isa = i
  intro hd
  cases i with
  | sse2 =>
    refine ⟨fun _ h => (nomatch h), fun _ => ?_⟩
    exact hd.2
  | avx =>
    refine ⟨fun _ h => (nomatch h), fun _ => ?_⟩
    simp only [detected] at hd
    simp only [canRun, osYmm]
    tauto
  | avx2 =>
    simp only [detected] at hd
    simp only [canRun, osYmm]
    have := hp (by omega)
    tauto

/-- The exception of C28 is reachable: a CPU that reports AVX2 but not AVX (for instance AVX masked off by a
hypervisor) is given AVX2 code it cannot run. -/
theorem C28_avx2_without_avx :
    ∃ (b : Build) (c : Cpu) (o : Obj), probeOk c ∧ create b c .complex 8 .auto = .ok o ∧
      ¬ canRun c o.isa := by
  refine ⟨⟨true, true, true⟩, ⟨7, 0, 0x0C000000#32, 0x06000000#32, 0x20#32, 7⟩,
    ⟨.complex, .avx2, 8⟩, ?_, ?_, ?_⟩
  · intro _; decide
  · decide
  · rintro ⟨_, h, _⟩
    revert h; decide

/-- The fault of C28 is reachable: on a machine that can run SSE2 code but whose operating system did not enable
XSAVE, asking for any transform faults in `XGETBV`. -/
theorem C28_xgetbv_faults :
    ∃ c : Cpu, canRun c .sse2 ∧ 0 < c.maxLeaf ∧
      ∀ b k n t, create b c k n t = .illegalInstruction := by
  refine ⟨⟨2, 0, 0#32, 0x06000000#32, 0, 0⟩, by simp only [canRun]; decide, by decide, ?_⟩
  intro b k n t
  rfl

/-- C29: whatever was created on a machine can be deleted on it: the deleter does not throw, does
not fault, and removes exactly that object (so a second delete of it is undefined behaviour, and
other objects survive). -/
theorem C29_delete_ok (b : Build) (c : Cpu) (k : Family) (n : Int) (t : OptType)
    (o : Obj) (h : create b c k n t = .ok o) (live : Nat → Option Obj) (p : Nat)
    (hp : live p = some o) :
    ∃ live', deleteObj b c live p = .ok (some live') ∧ live' p = none ∧
      ∀ q, q ≠ p → live' q = live q := by
  have hd : ∃ i, deleterOf b c = .ok i := by
    unfold create at h
    unfold deleterOf
    split at h
    · rename_i si e
      by_cases h2 : (b.withAVX2 && si.avx2) = true
      · exact ⟨.avx2, by rw [if_pos h2]⟩
      · rw [if_neg h2]
        by_cases h1 : (b.withAVX && si.avx) = true
        · exact ⟨.avx, by rw [if_pos h1]⟩
        · rw [if_neg h1]
          by_cases h0 : (b.withSSE2 && si.sse2) = true
          · exact ⟨.sse2, by rw [if_pos h0]⟩
          · exfalso
            simp only [Bool.and_eq_true] at h0 h1 h2
            split at h
            · rename_i hc; simp only [Bool.and_eq_true] at hc; exact h2 ⟨hc.1, hc.2.1⟩
            · split at h
              · rename_i hc; simp only [Bool.and_eq_true] at hc; exact h1 ⟨hc.1, hc.2.1⟩
              · split at h
                · rename_i hc; simp only [Bool.and_eq_true] at hc; exact h0 ⟨hc.1, hc.2.1⟩
                · cases h
    · cases h
    · cases h
  obtain ⟨i, hi⟩ := hd
  refine ⟨fun q => if q = p then none else live q, ?_, by simp, ?_⟩
  · unfold deleteObj; rw [hi, hp]
  · intro q hq; simp [hq]

/-- The code of the deleter that is called is itself of a detected, compiled-in back end. -/
theorem C29_deleter_detected (b : Build) (c : Cpu) (hp : probeOk c) (i : Isa)
    (h : deleterOf b c = .ok i) : builtIn b i ∧ detected c i := by
  obtain ⟨si, e, h2, h1, h0⟩ := sysinfo_spec c hp
  unfold deleterOf at h
  rw [e] at h
  simp only at h
  split at h
  · rename_i hc; simp only [Bool.and_eq_true] at hc; cases h; exact ⟨hc.1, h2.1 hc.2⟩
  · split at h
    · rename_i hc; simp only [Bool.and_eq_true] at hc; cases h; exact ⟨hc.1, h1.1 hc.2⟩
    · split at h
      · rename_i hc; simp only [Bool.and_eq_true] at hc; cases h; exact ⟨hc.1, h0.1 hc.2⟩
      · cases h

/-- An ordinary desktop CPU: hypotheses of the theorems above are met, AUTO gives AVX2, an explicit
SSE2 request gives SSE2. -/
example : let c : Cpu := ⟨0x16, 0, 0x1C001201#32, 0x06000000#32, 0x20#32, 7⟩
    probeOk c ∧ (c.ebx7.getLsbD 5 = true → c.ecx1.getLsbD 28 = true) ∧
    create ⟨true, true, true⟩ c .dct 64 .auto = .ok ⟨.dct, .avx2, 64⟩ ∧
    create ⟨true, true, true⟩ c .real 64 .sse2 = .ok ⟨.real, .sse2, 64⟩ ∧
    create ⟨true, false, false⟩ c .real 64 .avx = .domainError := by
  refine ⟨fun _ => by decide, fun _ => by decide, by decide, by decide, by decide⟩

end OTFFT.Props
