/-
C94: a signal with every other element negated.
-/
import Verif.Spec.Alternate
import Verif.Proof.Alt
import Verif.Props.Half

namespace OTFFT.Props

section
variable {F : Type} [FArith F] [Inhabited F]

/-- what is needed of the relations between doubles -/
structure AltRel (r : Bool → F → F → Prop) : Prop where
  pres : ∀ s, Preserved (r s)
  addSub : ∀ {s a b a' b'}, r s a a' → r (!s) b b' → r s (fadd a b) (fsub a' b')
  subAdd : ∀ {s a b a' b'}, r s a a' → r (!s) b b' → r s (fsub a b) (fadd a' b')

theorem altLaws {r : Bool → F → F → Prop} (h : AltRel r) (i : Target) :
    letI := i.arith F
    AltLaws (F := F) (C := Xmm F) fun s => Both (r s) := by
  letI := i.arith F
  refine ⟨fun s => (both3_homLaws (h.pres s) i).toLinLaws, ?_, ?_⟩
  · intro s a b a' b' h1 h2
    rw [addpz_arith, subpz_arith]
    exact ⟨h.addSub h1.1 h2.1, h.addSub h1.2 h2.2⟩
  · intro s a b a' b' h1 h2
    rw [addpz_arith, subpz_arith]
    exact ⟨h.subAdd h1.1 h2.1, h.subAdd h1.2 h2.2⟩

/-- C94 for any such relations -/
theorem alternate_shift {r : Bool → F → F → Prop} (h : AltRel r) (i : Target) (thr : Thr) {k : Kind} (hk : k.Plain) {n l : ℕ} (hl : 1 ≤ l)
    (hn2 : n = 2 ^ l) (hn : k.setupOK n) (s : Bool) :
    AlternateShift i thr k n (r s) (r (!s)) (r s) := by
  letI := i.arith F
  intro w w' c c' v v' hw hw' ok ok' hf hv hv' hx
  refine ⟨_, _, Kind.computes thr hw hn ok hv, Kind.computes thr hw' hn ok' hv', ?_⟩
  rw [← hf]
  have hx' : ∀ t < n, Both (r (sg s t)) (v t) (v' t) := fun t ht => by
    unfold sg
    rcases Nat.mod_two_eq_zero_or_one t with h | h
    · rw [if_pos h]; exact (hx t ht).1 h
    · rw [if_neg (by omega)]; exact (hx t ht).2 h
  generalize k.fn c = f
  clear hf hv hv' ok ok' c c'
  rcases hk with rfl | rfl
  · exact (altLaws h i).fftOut_alt hn2 hl hx'
  · exact (altLaws h i).fftOut_alt hn2 hl hx'

theorem inverse_isInv {e : Entry} (h : e ∈ [Entry.inv, .inv0, .invu, .invn]) : e.isInv = true := by
  cases e <;> first | rfl | simp at h

/-- the outputs of inverse real transforms of spectra so related -/
theorem alternate_real_out {r : Bool → F → F → Prop} (h : AltRel r) (i : Target) (thr : Thr) {n l : ℕ} (hl : 2 ≤ l) (hn2 : n = 2 ^ l) (s : Bool)
    {e : Entry} (he : e ∈ [Entry.inv, .inv0, .invu, .invn]) {v v' : ℕ → Xmm F} (hx : ∀ t ≤ n / 2, Both (r (sg s t)) (v t) (v' t)) :
    letI := i.arith F
    ∀ t < n, Both (r s) (rfftOut (Xmm F) thr e n v t) (rfftOut (Xmm F) thr e n v' ((t + n / 2) % n)) := by
  letI := i.arith F
  intro t ht
  obtain ⟨m, rfl, hm⟩ : ∃ m, n = 2 * m ∧ m = 2 ^ (l - 1) := ⟨2 ^ (l - 1), by rw [hn2, ← pow_succ', show l - 1 + 1 = l by omega], rfl⟩
  have hi := inverse_isInv he
  have h1 : ¬ 2 * m = 1 := by omega
  unfold rfftOut
  rw [show 2 * m / 2 = m by omega] at hx ⊢
  rw [if_neg h1, if_neg h1, if_pos hi, if_pos hi]
  exact (altLaws h i).rfftInv_alt (fun s => both3_homLaws (h.pres s) i) hm (by omega) hx t ht

/-- C94 for inverse real transforms and any such relations -/
theorem alternate_real {r : Bool → F → F → Prop} (h : AltRel r) (i : Target) (thr : Thr) {n l : ℕ} (hl : 2 ≤ l) (hn2 : n = 2 ^ l)
    (hn : Kind.real.setupOK n) (s : Bool) : AlternateShiftReal i thr n (r s) (r (!s)) (r s) := by
  letI := i.arith F
  intro w w' e x y x' y' v v' hw hw' he ok ok' hv hv' hx
  have hneed : realNeed e n = n / 2 + 1 := by
    have := inverse_isInv he
    cases e <;> first | rfl | cases this
  have hwr : ∀ a b : Ptr, Kind.real.writes (thr := thr) (C := Xmm F) n (e, a, b) = Region a n ∪ Region b n := by
    intro a b
    have := inverse_isInv he
    cases e <;> first | rfl | cases this
  have A := Kind.computes (k := .real) thr hw hn (c := (e, x, y)) ok (v := v) (show Arr w.heap x (realNeed e n) v by rw [hneed]; exact hv)
  have A' := Kind.computes (k := .real) thr hw' hn (c := (e, x', y')) ok' (v := v') (show Arr w'.heap x' (realNeed e n) v' by rw [hneed]; exact hv')
  rw [hwr] at A A'
  refine ⟨_, _, A, A', ?_⟩
  exact alternate_real_out h i thr hl hn2 s he fun t ht => by
    unfold sg
    rcases Nat.mod_two_eq_zero_or_one t with h | h
    · rw [if_pos h]; exact (hx t ht).1 h
    · rw [if_neg (by omega)]; exact (hx t ht).2 h

end

variable [Libm]

section ieee
variable {ρ : ℝ → ℝ} {Ω : ℝ}

omit [Libm] in
theorem same_symm {a b : Dbl} (h : a.same b) : b.same a := by
  cases a <;> cases b <;> first | exact trivial | exact h.elim | exact Eq.symm h

omit [Libm] in
theorem same_self (a : Dbl) : a.same a := by
  cases a <;> first | exact trivial | exact rfl

theorem ieee_alt (h0 : 0 ≤ Ω) (hρ : ∀ x, ρ (-x) = -ρ x) :
    AltRel (F := Ieee ρ Ω) fun s => if s then Ieee.opp else Ieee.same := by
  have P := (ieee_half (ρ := ρ) h0 hρ).pres
  -- the opposite of an addend
  have flip : ∀ {s : Bool} {b b' : Ieee ρ Ω}, (if (!s) then Ieee.opp else Ieee.same) b b' → (if s then Ieee.opp else Ieee.same) b (fneg b') := by
    intro s b b' h
    cases s
    · have h : b.d.neg.same b'.d := h
      show b.d.same b'.d.neg
      have := same_neg h
      rwa [dbl_neg_neg] at this
    · have h : b.d.same b'.d := h
      exact same_neg h
  refine ⟨P, ?_, ?_⟩
  · intro s a b a' b' h h'
    exact (P s).add a a' b (fneg b') h (flip h')
  · intro s a b a' b' h h'
    have := (P s).sub a a' b (fneg b') h (flip h')
    have e : fsub a' (fneg b') = fadd a' b' := by
      show (⟨Dbl.add ρ Ω a'.d b'.d.neg.neg⟩ : Ieee ρ Ω) = ⟨Dbl.add ρ Ω a'.d b'.d⟩
      rw [dbl_neg_neg]
    rw [e] at this
    exact this

/-- C94: in IEEE 754 arithmetic, for lengths that are powers of two: if every other element of a signal is negated, its
transform moves by half the length, bit for bit, whatever rounding does, also with overflow, infinities and NaN; only signs of
zeros may differ. Every entry point, instruction set and threshold. -/
theorem C94_alternate (h0 : 0 ≤ Ω) (hρ : ∀ x, ρ (-x) = -ρ x) (i : Target) (thr : Thr) {k : Kind} (hk : k.Plain) {n l : ℕ} (hl : 1 ≤ l)
    (hn2 : n = 2 ^ l) (hn : k.setupOK n) :
    AlternateShift (F := Ieee ρ Ω) i thr k n Ieee.same Ieee.opp Ieee.same := alternate_shift (ieee_alt h0 hρ) i thr hk hl hn2 hn false

/-- C94: a signal that is zero in all odd elements has a transform that repeats with period `n/2`, bit for bit; and if it is
zero in all even elements, the second half of its transform is exactly minus the first. IEEE 754 doubles, lengths that are
powers of two. -/
theorem C94_sparse (i : Target) (thr : Thr) {k : Kind} (hk : k.Plain) {n l : ℕ} (hl : 1 ≤ l) (hn2 : n = 2 ^ l) (hn : k.setupOK n) :
    letI := i.arith Dbl64
    ∀ (w : World (Xmm Dbl64)) (c : (k.cls (Xmm Dbl64) thr).Call) (v : ℕ → Xmm Dbl64), w.WF → k.callOK n c w.heap →
      Arr w.heap (k.input c) (k.need n c) v →
      ∃ out : ℕ → Xmm Dbl64, ComputesIn (k.cls (Xmm Dbl64) thr) n [c] w (k.writes n c) (k.output c) n out ∧
        ((∀ t < n, t % 2 = 1 → Zero2 (v t)) → ∀ t < n, Both Ieee.same (out t) (out ((t + n / 2) % n))) ∧
        ((∀ t < n, t % 2 = 0 → Zero2 (v t)) → ∀ t < n, Both Ieee.opp (out t) (out ((t + n / 2) % n))) := by
  letI := i.arith Dbl64
  intro w c v hw ok hv
  refine ⟨_, Kind.computes thr hw hn ok hv, ?_, ?_⟩
  · intro h
    have hx : ∀ t < n, Both ((fun s : Bool => if s then Ieee.opp else Ieee.same) (sg false t)) (v t) (v t) := fun t ht => by
      unfold sg
      rcases Nat.mod_two_eq_zero_or_one t with e | e
      · rw [if_pos e]; exact both_same_refl _
      · rw [if_neg (by omega)]; exact ⟨(h t ht e).1.opp, (h t ht e).2.opp⟩
    generalize k.fn c = f
    rcases hk with rfl | rfl
    · exact (altLaws (ieee_alt maxDbl_nonneg rnd64_neg) i).fftOut_alt hn2 hl hx
    · exact (altLaws (ieee_alt maxDbl_nonneg rnd64_neg) i).fftOut_alt hn2 hl hx
  · intro h
    have hx : ∀ t < n, Both ((fun s : Bool => if s then Ieee.opp else Ieee.same) (sg true t)) (v t) (v t) := fun t ht => by
      unfold sg
      rcases Nat.mod_two_eq_zero_or_one t with e | e
      · rw [if_pos e]; exact ⟨(h t ht e).1.opp, (h t ht e).2.opp⟩
      · rw [if_neg (by omega)]; exact both_same_refl _
    generalize k.fn c = f
    rcases hk with rfl | rfl
    · exact (altLaws (ieee_alt maxDbl_nonneg rnd64_neg) i).fftOut_alt hn2 hl hx
    · exact (altLaws (ieee_alt maxDbl_nonneg rnd64_neg) i).fftOut_alt hn2 hl hx

/-- C94: the same for the inverse real transform: if every other element of the half spectrum is negated, the signal moves by
half its length, bit for bit, whatever rounding does, also with overflow, infinities and NaN; only signs of zeros may differ.
Lengths that are powers of two, at least 4; every inverse entry point, instruction set and threshold. -/
theorem C94_real_inverse (h0 : 0 ≤ Ω) (hρ : ∀ x, ρ (-x) = -ρ x) (i : Target) (thr : Thr) {n l : ℕ} (hl : 2 ≤ l) (hn2 : n = 2 ^ l)
    (hn : Kind.real.setupOK n) : AlternateShiftReal (F := Ieee ρ Ω) i thr n Ieee.same Ieee.opp Ieee.same :=
  alternate_real (ieee_alt h0 hρ) i thr hl hn2 hn false

/-- C94: a half spectrum that is zero in all odd elements gives a signal whose second half repeats the first, bit for bit; one
that is zero in all even elements gives a signal whose second half is exactly minus the first. IEEE 754 doubles. -/
theorem C94_real_sparse (i : Target) (thr : Thr) {n l : ℕ} (hl : 2 ≤ l) (hn2 : n = 2 ^ l) (hn : Kind.real.setupOK n) :
    letI := i.arith Dbl64
    ∀ (w : World (Xmm Dbl64)) (e : Entry) (x y : Ptr) (v : ℕ → Xmm Dbl64), w.WF → e ∈ [Entry.inv, .inv0, .invu, .invn] →
      realOK n (e, x, y) w.heap → Arr w.heap x (n / 2 + 1) v →
      ∃ out : ℕ → Xmm Dbl64, ComputesIn (realFFT (Xmm Dbl64) thr) n [(e, x, y)] w (Region x n ∪ Region y n) y n out ∧
        ((∀ t ≤ n / 2, t % 2 = 1 → Zero2 (v t)) → ∀ t < n, Both Ieee.same (out t) (out ((t + n / 2) % n))) ∧
        ((∀ t ≤ n / 2, t % 2 = 0 → Zero2 (v t)) → ∀ t < n, Both Ieee.opp (out t) (out ((t + n / 2) % n))) := by
  letI := i.arith Dbl64
  intro w e x y v hw he ok hv
  have hneed : realNeed e n = n / 2 + 1 := by
    have := inverse_isInv he
    cases e <;> first | rfl | cases this
  have A := Kind.computes (k := .real) thr hw hn (c := (e, x, y)) ok (v := v) (show Arr w.heap x (realNeed e n) v by rw [hneed]; exact hv)
  rw [show Kind.real.writes (thr := thr) (C := Xmm Dbl64) n (e, x, y) = Region x n ∪ Region y n by
    have := inverse_isInv he
    cases e <;> first | rfl | cases this] at A
  refine ⟨_, A, ?_, ?_⟩
  · intro h
    have hx : ∀ t ≤ n / 2, Both ((fun s : Bool => if s then Ieee.opp else Ieee.same) (sg false t)) (v t) (v t) := fun t ht => by
      unfold sg
      rcases Nat.mod_two_eq_zero_or_one t with h' | h'
      · rw [if_pos h']; exact both_same_refl _
      · rw [if_neg (by omega)]; exact ⟨(h t ht h').1.opp, (h t ht h').2.opp⟩
    exact alternate_real_out (ieee_alt maxDbl_nonneg rnd64_neg) i thr hl hn2 false he hx
  · intro h
    have hx : ∀ t ≤ n / 2, Both ((fun s : Bool => if s then Ieee.opp else Ieee.same) (sg true t)) (v t) (v t) := fun t ht => by
      unfold sg
      rcases Nat.mod_two_eq_zero_or_one t with h' | h'
      · rw [if_pos h']; exact ⟨(h t ht h').1.opp, (h t ht h').2.opp⟩
      · rw [if_neg (by omega)]; exact both_same_refl _
    exact alternate_real_out (ieee_alt maxDbl_nonneg rnd64_neg) i thr hl hn2 true he hx

end ieee

/-! ### Examples -/

/-- any 4096 numbers, and the same ones with every other one negated -/
example (thr : Thr) (v : ℕ → Xmm Dbl64) : letI := avxBuild.arith Dbl64
    ∃ out out' : ℕ → Xmm Dbl64,
      ComputesIn (complexFFT (Xmm Dbl64) thr) 4096 [(.fwd, Ptr.base 1)] (oneArray 4096 v) (Region (Ptr.base 1) 4096) (Ptr.base 1) 4096 out ∧
      ComputesIn (complexFFT (Xmm Dbl64) thr) 4096 [(.fwd, Ptr.base 1)]
        (oneArray 4096 fun t => if t % 2 = 0 then v t else ![fneg (v t 0), fneg (v t 1)]) (Region (Ptr.base 1) 4096) (Ptr.base 1) 4096 out' ∧
      ∀ t < 4096, Both Ieee.same (out t) (out' ((t + 2048) % 4096)) := by
  have ok := oneArray_ok 4096 v
  have ok' := oneArray_ok 4096 fun t => if t % 2 = 0 then v t else (![fneg (v t 0), fneg (v t 1)] : Xmm Dbl64)
  have hv : ValidLen (2 ^ 12) := validLen_pow 12 (by omega) (by omega)
  have hv : ValidLen 4096 := hv
  refine C94_alternate maxDbl_nonneg rnd64_neg avxBuild thr (k := .complex) (.inl rfl) (l := 12) (by norm_num) (by norm_num)
    (show intLen (4096 : ℕ) from ⟨by norm_num, by norm_num⟩)
    (oneArray 4096 v) (oneArray 4096 _) (.fwd, Ptr.base 1) (.fwd, Ptr.base 1) v _ ok.wf ok'.wf ⟨hv, ok.arr.filled⟩ ⟨hv, ok'.arr.filled⟩ rfl
    ok.arr ok'.arr (fun t ht => ⟨fun h => ?_, fun h => ?_⟩)
  · rw [if_pos h]; exact both_same_refl _
  · rw [if_neg (by omega)]
    exact ⟨same_self (v t 0).d.neg, same_self (v t 1).d.neg⟩

/-- any spectrum of 8 numbers, and the same one with every other one negated: the inverse real transforms -/
example (thr : Thr) (v : ℕ → Xmm Dbl64) : letI := sse2Build.arith Dbl64
    ∃ out out' : ℕ → Xmm Dbl64,
      ComputesIn (realFFT (Xmm Dbl64) thr) 8 [(.inv, Ptr.base 1, Ptr.base 2)] (twoArrays 8 v)
        (Region (Ptr.base 1) 8 ∪ Region (Ptr.base 2) 8) (Ptr.base 2) 8 out ∧
      ComputesIn (realFFT (Xmm Dbl64) thr) 8 [(.inv, Ptr.base 1, Ptr.base 2)]
        (twoArrays 8 fun t => if t % 2 = 0 then v t else ![fneg (v t 0), fneg (v t 1)])
        (Region (Ptr.base 1) 8 ∪ Region (Ptr.base 2) 8) (Ptr.base 2) 8 out' ∧
      ∀ t < 8, Both Ieee.same (out t) (out' ((t + 4) % 8)) := by
  have hy : ∀ u : ℕ → Xmm Dbl64, Alloc (twoArrays 8 u).heap (Ptr.base 2) 8 := fun u i hi => by
    simp only [twoArrays, Ptr.base, Ptr.loc_add, Nat.zero_add, hi]; simp
  have hr : RealLen 8 := realLen_of_le (m := 4) (by norm_num) (by norm_num)
  have ok : ∀ u : ℕ → Xmm Dbl64, realOK 8 (Entry.inv, Ptr.base 1, Ptr.base 2) (twoArrays 8 u).heap := fun u =>
    ⟨hr, fun t ht => (twoArrays_ok 8 u).arr.filled t (by have : t < 8 / 2 + 1 := ht; omega), (twoArrays_ok 8 u).arr.alloc, hy u,
      Sep.of_buf (by simp [Ptr.base]) _ _⟩
  refine C94_real_inverse maxDbl_nonneg rnd64_neg sse2Build thr (l := 3) (by norm_num) (by norm_num)
    (show intLen (8 : ℕ) from ⟨by norm_num, by norm_num⟩)
    (twoArrays 8 v) (twoArrays 8 _) .inv (Ptr.base 1) (Ptr.base 2) (Ptr.base 1) (Ptr.base 2) v _ (twoArrays_ok 8 _).wf (twoArrays_ok 8 _).wf (by simp)
    (ok _) (ok _) (fun i hi => (twoArrays_ok 8 _).arr i (by omega)) (fun i hi => (twoArrays_ok 8 _).arr i (by omega)) (fun t ht => ⟨fun h => ?_, fun h => ?_⟩)
  · rw [if_pos h]; exact both_same_refl _
  · rw [if_neg (by omega)]
    exact ⟨same_self (v t 0).d.neg, same_self (v t 1).d.neg⟩

end OTFFT.Props
