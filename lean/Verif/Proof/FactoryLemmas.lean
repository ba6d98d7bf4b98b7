/- Helper lemmas: bit masks of sysinfo. -/
import Verif.Spec.Cpu
import Mathlib.Tactic.Tauto
import Mathlib.Tactic.Cases

namespace OTFFT

theorem mask_ne {n : Nat} (w : BitVec n) (k : Nat) (hk : k < n) :
    ((w &&& BitVec.twoPow n k) != 0#n) = w.getLsbD k := by
  rw [BitVec.and_twoPow]
  cases h : w.getLsbD k
  · simp
  · simp only [↓reduceIte, bne_iff_ne, ne_eq]
    intro e
    have := congrArg (fun v => BitVec.getLsbD v k) e
    simp [hk] at this

theorem mask32 (w : BitVec 32) (m : BitVec 32) (k : Nat) (hk : k < 32)
    (hm : m = BitVec.twoPow 32 k) : ((w &&& m) != 0) = w.getLsbD k := by
  subst hm; exact mask_ne w k hk

theorem mask6 (w : BitVec 64) : ((w &&& 6#64) == 6) = (w.getLsbD 1 && w.getLsbD 2) := by
  rw [Bool.eq_iff_iff]
  simp only [beq_iff_eq, Bool.and_eq_true]
  constructor
  · intro h
    have h1 := congrArg (fun v => BitVec.getLsbD v 1) h
    have h2 := congrArg (fun v => BitVec.getLsbD v 2) h
    simp only [BitVec.getLsbD_and] at h1 h2
    have e1 : (6#64).getLsbD 1 = true := by decide
    have e2 : (6#64).getLsbD 2 = true := by decide
    rw [e1] at h1; rw [e2] at h2
    simp only [Bool.and_true] at h1 h2
    exact ⟨h1.trans e1, h2.trans e2⟩
  · rintro ⟨h1, h2⟩
    apply BitVec.eq_of_getLsbD_eq
    intro i hi
    rw [BitVec.getLsbD_and]
    by_cases i1 : i = 1
    · subst i1; rw [h1]; decide
    · by_cases i2 : i = 2
      · subst i2; rw [h2]; decide
      · have : (6#64).getLsbD i = false := by
          revert i1 i2 hi; revert i; decide
        have h' : BitVec.getLsbD (6 : BitVec 64) i = false := this
        rw [this, h']; simp

theorem sysinfo_spec (c : Cpu) (hp : Spec.probeOk c) : ∃ i, sysinfo c = .ok i ∧
    (i.avx2 = true ↔ Spec.detected c .avx2) ∧ (i.avx = true ↔ Spec.detected c .avx) ∧
    (i.sse2 = true ↔ Spec.detected c .sse2) := by
  unfold sysinfo xgetbv
  simp only [mask6, mask32 c.ecx1 0x04000000#32 26 (by decide) (by decide),
    mask32 c.edx1 0x04000000#32 26 (by decide) (by decide),
    mask32 c.ecx1 0x10000000#32 28 (by decide) (by decide),
    mask32 c.ecx1 0x08000000#32 27 (by decide) (by decide),
    mask32 c.ebx7 0x00000020#32 5 (by decide) (by decide)]
  by_cases h0 : c.maxLeaf > 0
  · have h27 := hp h0
    simp only [h0, if_true, h27]
    by_cases h7 : c.maxLeaf ≥ 7 ∧ (c.ecx1.getLsbD 26 && (c.xcr0.getLsbD 1 && c.xcr0.getLsbD 2)) = true
    · rw [if_pos h7]
      refine ⟨_, rfl, ?_, ?_, ?_⟩
      · simp only [Spec.detected]
        simp only [Bool.and_eq_true] at h7
        tauto
      · simp only [Spec.detected, Bool.and_eq_true]
        tauto
      · simp only [Spec.detected]
        have : (0:Int) < c.maxLeaf := h0
        tauto
    · rw [if_neg h7]
      refine ⟨_, rfl, ?_, ?_, ?_⟩
      · simp only [Spec.detected]
        simp only [Bool.and_eq_true] at h7
        have : (7 ≤ c.maxLeaf) ↔ c.maxLeaf ≥ 7 := Iff.rfl
        simp only [Bool.false_eq_true, false_iff]
        tauto
      · simp only [Spec.detected, Bool.and_eq_true]
        tauto
      · simp only [Spec.detected]
        have : (0:Int) < c.maxLeaf := h0
        tauto
  · rw [if_neg h0]
    refine ⟨_, rfl, ?_, ?_, ?_⟩ <;> simp only [Spec.detected, Bool.false_eq_true, false_iff] <;> omega

end OTFFT
