/-
C93: a signal delayed by half its length.
-/
import Verif.Spec.Half
import Verif.Proof.Half
import Verif.Props.Hom
import Verif.Props.RealImpulse
import Verif.Props.Silence

namespace OTFFT.Props

theorem forward_isInv {e : Entry} (h : e ∈ [Entry.fwd, .fwd0, .fwdu, .fwdn]) : e.isInv = false := by
  cases e <;> first | rfl | (simp at h)

section
variable {F : Type} [FArith F] [Inhabited F]

/-- what is needed of the relations between doubles -/
structure HalfRel (r : Bool → F → F → Prop) : Prop where
  pres : ∀ s, Preserved (r s)
  comm : ∀ {s a b a' b'}, r s a b' → r s b a' → r s (fadd a b) (fadd a' b')
  anti : ∀ {s a b a' b'}, r s a b' → r s b a' → r (!s) (fsub a b) (fsub a' b')

theorem both3_homLaws {r : F → F → Prop} (P : Preserved r) (i : Target) :
    letI := i.arith F
    HomLaws (E := F) (A := Xmm F) (F := F) (C := Xmm F) (fun _ => r) fun _ => Both r :=
  Target.homLaws (pres_of P) i (Equiv.refl _) (Equiv.refl _)

theorem halfLaws {r : Bool → F → F → Prop} (h : HalfRel r) (i : Target) :
    letI := i.arith F
    HalfLaws (F := F) (C := Xmm F) fun s => Both (r s) := by
  letI := i.arith F
  refine ⟨fun s => (both3_homLaws (h.pres s) i).toLinLaws, fun s => @HomLaws.mulR _ _ _ _ _ _ _ _ _ _ (both3_homLaws (h.pres s) i), ?_, ?_⟩
  · intro s a b a' b' h1 h2
    rw [addpz_arith, addpz_arith]
    exact ⟨h.comm h1.1 h2.1, h.comm h1.2 h2.2⟩
  · intro s a b a' b' h1 h2
    rw [subpz_arith, subpz_arith]
    exact ⟨h.anti h1.1 h2.1, h.anti h1.2 h2.2⟩

theorem half_out {r : Bool → F → F → Prop} (h : HalfRel r) (i : Target) (thr : Thr) (k : Kind) {n : ℕ} (s : Bool) (f : k.Fn)
    (hl : k.HalfLen n f) {v v' : ℕ → Xmm F} (hx : ∀ t < n, Both (r s) (v t) (v' ((t + n / 2) % n))) :
    letI := i.arith F
    ∀ t < n, EvenOdd (r s) (r (!s)) t (k.out (Xmm F) thr n f v t) (k.out (Xmm F) thr n f v' t) := by
  letI := i.arith F
  have H := halfLaws h i
  have fin : ∀ {t : ℕ} {a b : Xmm F}, Both (r (sg s t)) a b → EvenOdd (r s) (r (!s)) t a b := by
    intro t a b h
    unfold EvenOdd
    unfold sg at h
    split
    · rwa [if_pos (by assumption)] at h
    · rwa [if_neg (by assumption)] at h
  cases k with
  | complex => exact fun t ht => fin (H.fftOut_half hl hx t ht)
  | fft0 => exact fun t ht => fin (H.fftOut_half hl hx t ht)
  | real =>
    obtain ⟨h4, he⟩ : n % 4 = 0 ∧ f ∈ [Entry.fwd, .fwd0, .fwdu, .fwdn] := hl
    have he : Entry.isInv f = false := forward_isInv he
    intro t ht
    obtain ⟨m, rfl, hm⟩ : ∃ m, n = 2 * m ∧ m % 2 = 0 := ⟨n / 2, by omega, by omega⟩
    show EvenOdd _ _ t (rfftOut (Xmm F) thr f (2 * m) v t) (rfftOut (Xmm F) thr f (2 * m) v' t)
    unfold rfftOut
    have h1 : ¬ 2 * m = 1 := by omega
    have h2 : ¬ Entry.isInv f = true := by rw [he]; exact Bool.false_ne_true
    rw [if_neg h1, if_neg h1, if_neg h2, if_neg h2, show 2 * m / 2 = m by omega]
    rw [show 2 * m / 2 = m by omega] at hx
    exact fin (H.rfftFwd_half (fun s => both3_homLaws (h.pres s) i) hm hx t ht)
  | dct => exact hl.elim
  | dct0 => exact hl.elim
  | bluestein => exact hl.elim

/-- C93 for any such relations -/
theorem half_delay {r : Bool → F → F → Prop} (h : HalfRel r) (i : Target) (thr : Thr) (k : Kind) {n : ℕ} (hn : k.setupOK n) (s : Bool) :
    HalfDelay i thr k n (r s) (r s) (r (!s)) := by
  letI := i.arith F
  intro w w' c c' v v' hw hw' ok ok' hf hl hv hv' hx
  refine ⟨_, _, Kind.computes thr hw hn ok hv, Kind.computes thr hw' hn ok' hv', ?_⟩
  rw [← hf]
  exact half_out h i thr k s (k.fn c) hl hx

end

/-! ### IEEE 754 -/

variable [Libm]

section ieee
variable {ρ : ℝ → ℝ} {Ω : ℝ}

omit [Libm] in
theorem dbl_add_comm (a b : Dbl) : Dbl.add ρ Ω a b = Dbl.add ρ Ω b a := by
  cases a <;> cases b <;> try rfl
  · rename_i s t
    cases s <;> cases t <;> rfl
  · rename_i x z y z'
    show Dbl.rnd ρ Ω _ _ = Dbl.rnd ρ Ω _ _
    rw [add_comm, Dbl.zsum, Dbl.zsum, Bool.and_comm]

omit [Libm] in
theorem same_rnd_neg (h0 : 0 ≤ Ω) (hρ : ∀ x, ρ (-x) = -ρ x) (x : ℝ) (z z' : Bool) : (Dbl.rnd ρ Ω x z).neg.same (Dbl.rnd ρ Ω (-x) z') := by
  have hz : ρ 0 = 0 := by have := hρ 0; rw [neg_zero] at this; linarith
  unfold Dbl.rnd
  rw [hρ, abs_neg]
  by_cases hc : Ω < |ρ x|
  · rw [if_pos hc, if_pos hc]
    have hx : x ≠ 0 := by
      rintro rfl
      rw [hz, abs_zero] at hc
      linarith
    show (!decide (x < 0)) = decide (-x < 0)
    rcases lt_or_gt_of_ne hx with h | h
    · rw [decide_eq_true h, decide_eq_false (by linarith)]; rfl
    · rw [decide_eq_false (by linarith), decide_eq_true (by linarith)]; rfl
  · rw [if_neg hc, if_neg hc]
    exact rfl

theorem opp_sub (h0 : 0 ≤ Ω) (hρ : ∀ x, ρ (-x) = -ρ x) (a b : Ieee ρ Ω) : Ieee.opp (fsub a b) (fsub b a) := by
  obtain ⟨a⟩ := a
  obtain ⟨b⟩ := b
  show (Dbl.add ρ Ω a b.neg).neg.same (Dbl.add ρ Ω b a.neg)
  cases a <;> cases b <;> try exact trivial
  · rename_i s t
    cases s <;> cases t <;> first | exact trivial | exact rfl
  · exact rfl
  · exact Bool.not_not _
  · rename_i x z y z'
    have := same_rnd_neg (ρ := ρ) h0 hρ (x + -y) (Dbl.zsum (.num x z) (Dbl.num y z').neg) (Dbl.zsum (.num y z') (Dbl.num x z).neg)
    rw [show -(x + -y) = y + -x by ring] at this
    exact this

omit [Libm] in
theorem same_trans {a b c : Dbl} (h : a.same b) (h' : b.same c) : a.same c := by
  cases a <;> cases b <;> cases c <;> first | exact trivial | exact h.elim | exact h'.elim | exact Eq.trans h h'

omit [Libm] in
theorem same_neg {a b : Dbl} (h : a.same b) : a.neg.same b.neg := by
  cases a <;> cases b <;> first | exact trivial | exact h.elim | skip
  · exact congrArg not h
  · exact congrArg Neg.neg h

omit [Libm] in
theorem dbl_neg_neg (a : Dbl) : a.neg.neg = a := by
  cases a
  · rfl
  · exact congrArg Dbl.inf (Bool.not_not _)
  · exact congrArg₂ Dbl.num (neg_neg _) (Bool.not_not _)

/-- equality and opposition, up to signs of zeros -/
theorem ieee_half (h0 : 0 ≤ Ω) (hρ : ∀ x, ρ (-x) = -ρ x) :
    HalfRel (F := Ieee ρ Ω) fun s => if s then Ieee.opp else Ieee.same := by
  have hz : ρ 0 = 0 := by have := hρ 0; rw [neg_zero] at this; linarith
  have P : ∀ s : Bool, Preserved (F := Ieee ρ Ω) (if s then Ieee.opp else Ieee.same) := by
    intro s
    cases s
    · exact preserved_same h0 hz
    · exact preserved_opp h0 hρ
  refine ⟨P, ?_, ?_⟩
  · intro s a b a' b' h h'
    have e : fadd a' b' = fadd b' a' := congrArg Ieee.mk (dbl_add_comm _ _)
    rw [e]
    exact (P s).add _ _ _ _ h h'
  · intro s a b a' b' h h'
    have h1 := (P s).sub _ _ _ _ h h'
    have h2 := opp_sub h0 hρ b' a'
    cases s
    · exact same_trans (same_neg h1) h2
    · have h3 : (fsub a b).d.neg.neg.same (fsub b' a').d.neg := same_neg h1
      rw [dbl_neg_neg] at h3
      exact same_trans h3 h2

/-- C93: in IEEE 754 arithmetic, the transform of a signal delayed by half its length (for periodic signals, delayed and
advanced by half the length are the same) has, bit for bit, the even elements of the transform of the signal, and minus the odd
ones, whatever rounding does, also with overflow, infinities and NaN; only signs of zeros may differ. Complex transforms of
even length and forward real transforms of a length that 4 divides, every length, entry point and instruction set. -/
theorem C93_shift (h0 : 0 ≤ Ω) (hρ : ∀ x, ρ (-x) = -ρ x) (i : Target) (thr : Thr) (k : Kind) {n : ℕ} (hn : k.setupOK n) :
    HalfDelay (F := Ieee ρ Ω) i thr k n Ieee.same Ieee.same Ieee.opp := half_delay (ieee_half h0 hρ) i thr k hn false

/-- C93: if the second signal is moreover negated, the signs are the other way round. -/
theorem C93_shift_neg (h0 : 0 ≤ Ω) (hρ : ∀ x, ρ (-x) = -ρ x) (i : Target) (thr : Thr) (k : Kind) {n : ℕ} (hn : k.setupOK n) :
    HalfDelay (F := Ieee ρ Ω) i thr k n Ieee.opp Ieee.opp Ieee.same := half_delay (ieee_half h0 hρ) i thr k hn true

omit [Libm] in
/-- a number that is its own opposite: zero (or NaN) -/
theorem zero_or_nan {a : Ieee ρ Ω} (h : Ieee.opp a a) : (∃ z, a.d = .num 0 z) ∨ a.isNaN := by
  obtain ⟨a⟩ := a
  have h : a.neg.same a := h
  cases a with
  | nan => exact .inr rfl
  | inf s => cases s <;> cases h
  | num x z =>
    have h : -x = x := h
    exact .inl ⟨z, by rw [show x = 0 by linarith]⟩

end ieee

/-- both parts are zeros, or NaN -/
def ZeroOrNaN (a : Xmm Dbl64) : Prop := (IsZero (a 0) ∨ (a 0).isNaN) ∧ (IsZero (a 1) ∨ (a 1).isNaN)

omit [Libm] in
theorem ZeroOrNaN.of {a : Xmm Dbl64} (h : Both Ieee.opp a a) : ZeroOrNaN a := ⟨zero_or_nan h.1, zero_or_nan h.2⟩

/-- C93: the spectrum of a signal with period `n/2` is exactly zero in the odd elements, and that of a signal whose second half
is minus the first is exactly zero in the even ones: IEEE 754 doubles, no rounding error, for every class, length, entry point,
instruction set and threshold of `C93_shift`. (NaN only if something overflows or the input contains infinities or NaN.) -/
theorem C93_zeros (i : Target) (thr : Thr) (k : Kind) {n : ℕ} (hn : k.setupOK n) :
    letI := i.arith Dbl64
    ∀ (w : World (Xmm Dbl64)) (c : (k.cls (Xmm Dbl64) thr).Call) (v : ℕ → Xmm Dbl64), w.WF → k.callOK n c w.heap →
      k.HalfLen n (k.fn c) → Arr w.heap (k.input c) (k.need n c) v →
      ∃ out : ℕ → Xmm Dbl64, ComputesIn (k.cls (Xmm Dbl64) thr) n [c] w (k.writes n c) (k.output c) n out ∧
        ((∀ t < n, Both Ieee.same (v t) (v ((t + n / 2) % n))) → ∀ t < n, t % 2 = 1 → ZeroOrNaN (out t)) ∧
        ((∀ t < n, Both Ieee.opp (v t) (v ((t + n / 2) % n))) → ∀ t < n, t % 2 = 0 → ZeroOrNaN (out t)) := by
  letI := i.arith Dbl64
  intro w c v hw ok hl hv
  refine ⟨_, Kind.computes thr hw hn ok hv, fun h t ht h1 => ?_, fun h t ht h1 => ?_⟩
  · have := half_out (ieee_half maxDbl_nonneg rnd64_neg) i thr k false (k.fn c) hl h t ht
    unfold EvenOdd at this
    rw [if_neg (by omega)] at this
    exact ZeroOrNaN.of this
  · have := half_out (ieee_half maxDbl_nonneg rnd64_neg) i thr k true (k.fn c) hl h t ht
    unfold EvenOdd at this
    rw [if_pos h1] at this
    exact ZeroOrNaN.of this

/-! ### Examples -/

omit [Libm] in
theorem both_same_refl (a : Xmm Dbl64) : Both Ieee.same a a := by
  have h : ∀ d : Dbl64, Ieee.same d d := by
    rintro ⟨d⟩
    cases d <;> first | exact trivial | exact rfl
  exact ⟨h _, h _⟩

/-- any twelve numbers, and the same ones the second half first -/
example (thr : Thr) (v : ℕ → Xmm Dbl64) : letI := avxBuild.arith Dbl64
    ∃ out out' : ℕ → Xmm Dbl64,
      ComputesIn (complexFFT (Xmm Dbl64) thr) 12 [(.fwd, Ptr.base 1)] (oneArray 12 v) (Region (Ptr.base 1) 12) (Ptr.base 1) 12 out ∧
      ComputesIn (complexFFT (Xmm Dbl64) thr) 12 [(.fwd, Ptr.base 1)]
        (oneArray 12 fun t => v ((t + 6) % 12)) (Region (Ptr.base 1) 12) (Ptr.base 1) 12 out' ∧
      ∀ t < 12, EvenOdd Ieee.same Ieee.opp t (out t) (out' t) := by
  have ok := oneArray_ok 12 v
  have ok' := oneArray_ok 12 fun t => v ((t + 6) % 12)
  have h12 := validLen_of_le (n := 12) (by omega) (by omega)
  refine C93_shift maxDbl_nonneg rnd64_neg avxBuild thr .complex (show intLen (12 : ℕ) from ⟨by norm_num, by norm_num⟩)
    (oneArray 12 v) (oneArray 12 _) (.fwd, Ptr.base 1) (.fwd, Ptr.base 1) v _ ok.wf ok'.wf ⟨h12, ok.arr.filled⟩ ⟨h12, ok'.arr.filled⟩ rfl
    (show 12 % 2 = 0 by norm_num) ok.arr ok'.arr (fun t ht => ?_)
  show Both Ieee.same (v t) (v (((t + 12 / 2) % 12 + 6) % 12))
  rw [show ((t + 12 / 2) % 12 + 6) % 12 = t by omega]
  exact both_same_refl _

/-- the ramp 0, …, 5 twice: nothing in the odd elements -/
example (thr : Thr) : letI := sse2Build.arith Dbl64
    ∃ out : ℕ → Xmm Dbl64,
      ComputesIn (complexFFT (Xmm Dbl64) thr) 12 [(.inv, Ptr.base 1)] (oneArray 12 fun t => ![⟨.num (t % 6 : ℕ) false⟩, ⟨.num 0 false⟩])
        (Region (Ptr.base 1) 12) (Ptr.base 1) 12 out ∧ ∀ t < 12, t % 2 = 1 → ZeroOrNaN (out t) := by
  have ok := oneArray_ok 12 fun t => (![⟨.num (t % 6 : ℕ) false⟩, ⟨.num 0 false⟩] : Xmm Dbl64)
  have h12 := validLen_of_le (n := 12) (by omega) (by omega)
  obtain ⟨out, h, h1, -⟩ := C93_zeros sse2Build thr .complex (show intLen (12 : ℕ) from ⟨by norm_num, by norm_num⟩)
    (oneArray 12 _) (.inv, Ptr.base 1) _ ok.wf ⟨h12, ok.arr.filled⟩ (show 12 % 2 = 0 by norm_num) ok.arr
  refine ⟨out, h, h1 fun t ht => ?_⟩
  show Both Ieee.same _ _
  rw [show ((t + 12 / 2) % 12) % 6 = t % 6 by omega]
  exact both_same_refl _

end OTFFT.Props
