/-
C95: a signal delayed by a quarter of its length.
-/
import Verif.Spec.Quarter
import Verif.Proof.Quarter
import Verif.Props.Half
import Verif.Props.Sign
import Verif.Props.Short

namespace OTFFT.Props

section
variable {F : Type} [FArith F] [Inhabited F]

/-- what is needed of the relations between doubles -/
structure QuarterRel (r : Bool → F → F → Prop) : Prop where
  signed : Signed r
  pres : ∀ s, Preserved (r s)

theorem turned_cases {r : Bool → F → F → Prop} (S : Signed r) (k : ℕ) :
    TurnedBy r k = Both (r false) ∨ TurnedBy r k = TimesI r ∨ TurnedBy r k = Both (r true) ∨ TurnedBy r k = fun a b => TimesI r b a := by
  have h : k % 4 = 0 ∨ k % 4 = 1 ∨ k % 4 = 2 ∨ k % 4 = 3 := by omega
  rcases h with h | h | h | h
  · left; funext a b; simp only [TurnedBy, h]; rfl
  · right; left; funext a b; simp only [TurnedBy, h]; rfl
  · right; right; left; funext a b; simp only [TurnedBy, h]; rfl
  · right; right; right
    funext a b
    simp only [TurnedBy, h]
    exact propext ⟨fun h => ⟨S.symm h.2, S.symm h.1⟩, fun h => ⟨S.symm h.2, S.symm h.1⟩⟩

theorem turned_lin {r : Bool → F → F → Prop} (h : QuarterRel r) (i : Target) (k : ℕ) : letI := i.arith F
    LinLaws (E := F) (A := Xmm F) (F := F) (C := Xmm F) fun _ => TurnedBy r k := by
  letI := i.arith F
  have L := Target.rotLaws h.signed i
  rcases turned_cases h.signed k with e | e | e | e <;> rw [e]
  · exact (both3_homLaws (h.pres false) i).toLinLaws
  · exact L
  · exact (both3_homLaws (h.pres true) i).toLinLaws
  · exact
    { add := fun {c d _ _ _ _} h h' => L.add (c := c) (d := d) h h'
      sub := fun {c d _ _ _ _} h h' => L.sub (c := c) (d := d) h h'
      jx := fun {c _ _} h => L.jx (c := c) h
      v8 := fun {c _ _} h => L.v8 (c := c) h
      w8 := fun {c _ _} h => L.w8 (c := c) h
      h1 := fun {c _ _} h => L.h1 (c := c) h
      h3 := fun {c _ _} h => L.h3 (c := c) h
      hf := fun {c _ _} h => L.hf (c := c) h
      hd := fun {c _ _} h => L.hd (c := c) h
      mulL := fun {c _ _} k w h => L.mulL (c := c) k w h
      scl := fun {c _ _} k w h => L.scl (c := c) k w h
      zeroC := L.zeroC }

theorem turned_mulR {r : Bool → F → F → Prop} (h : QuarterRel r) {i : Target} (hi : i.fused = false) (k : ℕ) : letI := i.arith F
    LinLaws.MulR (E := F) (A := Xmm F) (F := F) (C := Xmm F) fun _ => TurnedBy r k := by
  letI := i.arith F
  intro c a a' w w' hh
  rcases turned_cases h.signed k with e | e | e | e <;> rw [e] at hh ⊢
  · exact (both3_homLaws (h.pres false) i).mulR (c := c) w w' hh
  · exact Target.rotMulR h.signed hi (c := c) w w' hh
  · exact (both3_homLaws (h.pres true) i).mulR (c := c) w w' hh
  · exact Target.rotMulR h.signed hi (c := c) w w' hh

theorem turned_cnj {r : Bool → F → F → Prop} (S : Signed r) (i : Target) : letI := i.arith F
    ∀ k < 4, ∀ {a b : Xmm F}, TurnedBy r k a b → TurnedBy r ((4 - k) % 4) (cnjpz a) (cnjpz b) := by
  letI := i.arith F
  have N : ∀ a : Xmm F, cnjpz a = ![a 0, fneg (a 1)] := by
    intro a
    obtain ⟨s2, s3, f, av, a5⟩ := i
    cases s2 <;> cases s3 <;> cases f <;> (funext j; fin_cases j <;> rfl)
  intro k hk a b h
  rw [N, N]
  have hc : k = 0 ∨ k = 1 ∨ k = 2 ∨ k = 3 := by omega
  rcases hc with rfl | rfl | rfl | rfl
  · exact ⟨h.1, S.negB h.2⟩
  · exact ⟨S.negL h.1, S.neg h.2⟩
  · exact ⟨h.1, S.negB h.2⟩
  · exact ⟨S.negL h.1, S.neg h.2⟩

theorem quarterLaws {r : Bool → F → F → Prop} (h : QuarterRel r) (i : Target) :
    letI := i.arith F
    QuarterLaws (F := F) (C := Xmm F) (TurnedBy r) := by
  letI := i.arith F
  have S := h.signed
  have A : ∀ a b : Xmm F, addpz a b = ![fadd (a 0) (b 0), fadd (a 1) (b 1)] := addpz_arith i
  have B : ∀ a b : Xmm F, subpz a b = ![fsub (a 0) (b 0), fsub (a 1) (b 1)] := subpz_arith i
  have J : ∀ a : Xmm F, jxpz a = ![fneg (a 1), a 0] := jxpz_arith i
  refine ⟨turned_lin h i, ?_, ?_, ?_, ?_⟩ <;> intro a b c d a' b' c' d' h1 h2 h3 h4 <;> simp only [A, B, J]
  · exact ⟨S.addc (S.add h1.1 h3.1) (S.addc h2.1 h4.1), S.addc (S.add h1.2 h3.2) (S.addc h2.2 h4.2)⟩
  · exact ⟨S.subsubc (f := false) (S.neg (S.subsub h1.2 h3.2)) (S.subsubc (f := true) h2.1 h4.1),
      S.subsubc (f := true) (S.subsub h1.1 h3.1) (S.negL (S.subsubc (f := true) h2.2 h4.2))⟩
  · exact ⟨S.subsubc (f := true) (S.add h1.1 h3.1) (S.addc h2.1 h4.1), S.subsubc (f := true) (S.add h1.2 h3.2) (S.addc h2.2 h4.2)⟩
  · exact ⟨S.addc (S.neg (S.subsub h1.2 h3.2)) (S.subsubc (f := true) h2.1 h4.1),
      S.addc (S.subsub h1.1 h3.1) (S.negL (S.subsubc (f := true) h2.2 h4.2))⟩

theorem backward_eq (e : Entry) : e.backward = e.isInv := by cases e <;> rfl

theorem turned_qg {r : Bool → F → F → Prop} (inv : Bool) (t : ℕ) : TurnedBy r (qg inv t) = TurnedBy r (if inv then t else 3 * t) := by
  unfold TurnedBy qg
  rw [Nat.mod_mod]

theorem quarter_out {r : Bool → F → F → Prop} (h : QuarterRel r) (i : Target) (thr : Thr) (k : Kind) {n : ℕ} (f : k.Fn)
    (hl : k.QuarterLen i n f) {v v' : ℕ → Xmm F} (hx : ∀ t < n, Both (r false) (v t) (v' ((t + n / 4) % n))) :
    letI := i.arith F
    ∀ t < n, TurnedBy r (if k.isInv f then t else 3 * t) (k.out (Xmm F) thr n f v t) (k.out (Xmm F) thr n f v' t) := by
  letI := i.arith F
  have H := quarterLaws h i
  have hR : ∀ {m : ℕ}, (i.fused = false ∨ ∃ l, m = 2 ^ l) →
      (∀ b, LinLaws.MulR (E := F) (A := Xmm F) (F := F) (C := Xmm F) fun _ => TurnedBy r b) ∨ ∃ l, m = 2 ^ l :=
    fun hi => hi.imp_left fun hi b => @turned_mulR F _ _ r h i hi b
  cases k with
  | complex =>
    intro t ht
    rw [← turned_qg, show Kind.isInv _ f = Entry.isInv f from backward_eq f]
    exact H.fftOut_quarter (hR hl.2) hl.1 hx t ht
  | fft0 =>
    intro t ht
    rw [← turned_qg, show Kind.isInv _ f = Entry.isInv f from backward_eq f]
    exact H.fftOut_quarter (hR hl.2) hl.1 hx t ht
  | real =>
    obtain ⟨h8, hp, he⟩ : n % 8 = 0 ∧ (i.fused = false ∨ ∃ l, n = 2 ^ l) ∧ f ∈ [Entry.fwd, .fwd0, .fwdu, .fwdn] := hl
    have he : Entry.isInv f = false := forward_isInv he
    intro t ht
    obtain ⟨m, rfl, hm⟩ : ∃ m, n = 2 * m ∧ m % 4 = 0 := ⟨n / 2, by omega, by omega⟩
    have hp' : i.fused = false ∨ ∃ l, m = 2 ^ l := hp.imp_right fun ⟨l, hl⟩ => by
      rcases l with _ | l
      · omega
      · exact ⟨l, by rw [pow_succ] at hl; omega⟩
    rw [← turned_qg, show Kind.isInv _ f = Entry.isInv f from backward_eq f]
    show TurnedBy r (qg (Entry.isInv f) t) (rfftOut (Xmm F) thr f (2 * m) v t) (rfftOut (Xmm F) thr f (2 * m) v' t)
    unfold rfftOut
    have h1 : ¬ 2 * m = 1 := by omega
    have h2 : ¬ Entry.isInv f = true := by rw [he]; exact Bool.false_ne_true
    rw [if_neg h1, if_neg h1, if_neg h2, if_neg h2, he, show 2 * m / 2 = m by omega]
    rw [show 2 * m / 4 = m / 2 by omega] at hx
    exact H.rfftFwd_quarter (both3_homLaws (h.pres false) i) (turned_cnj h.signed i) (hR hp') hm hx t ht
  | dct => exact hl.elim
  | dct0 => exact hl.elim
  | bluestein => exact hl.elim

/-- C95 for any such relations -/
theorem quarter_delay {r : Bool → F → F → Prop} (h : QuarterRel r) (i : Target) (thr : Thr) (k : Kind) {n : ℕ} (hn : k.setupOK n) :
    QuarterDelay i thr k n r := by
  letI := i.arith F
  intro w w' c c' v v' hw hw' ok ok' hf hl hv hv' hx
  refine ⟨_, _, Kind.computes thr hw hn ok hv, Kind.computes thr hw' hn ok' hv', ?_⟩
  rw [← hf]
  exact quarter_out h i thr k (k.fn c) hl hx

end

/-! ### IEEE 754 -/

variable [Libm]

section ieee
variable {ρ : ℝ → ℝ} {Ω : ℝ}

theorem ieee_quarter (h0 : 0 ≤ Ω) (hρ : ∀ x, ρ (-x) = -ρ x) : QuarterRel (F := Ieee ρ Ω) Ieee.signed := by
  have hz : ρ 0 = 0 := by have := hρ 0; rw [neg_zero] at this; linarith
  refine ⟨Ieee.signed_laws h0 hρ, fun s => ?_⟩
  cases s
  · exact preserved_same h0 hz
  · exact preserved_opp h0 hρ

/-- C95: in IEEE 754 arithmetic, element `t` of the transform of a signal delayed by a quarter of its length is, bit for bit,
element `t` of the transform of the signal times `(-i)^t` (`i^t` for inverse transforms), that is the same digits with real and
imaginary part exchanged and signs changed as needed, whatever rounding does, also with overflow, infinities and NaN; only signs
of zeros may differ. -/
theorem C95_quarter (h0 : 0 ≤ Ω) (hρ : ∀ x, ρ (-x) = -ρ x) (i : Target) (thr : Thr) (k : Kind) {n : ℕ} (hn : k.setupOK n) :
    QuarterDelay (F := Ieee ρ Ω) i thr k n Ieee.signed := quarter_delay (ieee_quarter h0 hρ) i thr k hn

end ieee

/-- C95: the spectrum of a signal of period `n/4` is exactly zero in all elements but every fourth one: IEEE 754 doubles, no
rounding error. (NaN only if something overflows or the input contains infinities or NaN.) -/
theorem C95_zeros (i : Target) (thr : Thr) (k : Kind) {n : ℕ} (hn : k.setupOK n) :
    letI := i.arith Dbl64
    ∀ (w : World (Xmm Dbl64)) (c : (k.cls (Xmm Dbl64) thr).Call) (v : ℕ → Xmm Dbl64), w.WF → k.callOK n c w.heap →
      k.QuarterLen i n (k.fn c) → Arr w.heap (k.input c) (k.need n c) v →
      ∃ out : ℕ → Xmm Dbl64, ComputesIn (k.cls (Xmm Dbl64) thr) n [c] w (k.writes n c) (k.output c) n out ∧
        ((∀ t < n, Both Ieee.same (v t) (v ((t + n / 4) % n))) → ∀ t < n, t % 4 ≠ 0 → ZeroOrNaN (out t)) := by
  letI := i.arith Dbl64
  intro w c v hw ok hl hv
  refine ⟨_, Kind.computes thr hw hn ok hv, fun h t ht h1 => ?_⟩
  have S := Ieee.signed_laws (ρ := rnd64) maxDbl_nonneg rnd64_neg
  have key := quarter_out (ieee_quarter maxDbl_nonneg rnd64_neg) i thr k (k.fn c) hl h t ht
  have fin : ∀ {m : ℕ} {a : Xmm Dbl64}, m % 4 ≠ 0 → TurnedBy Ieee.signed m a a → ZeroOrNaN a := by
    intro m a hm h
    have hc : m % 4 = 1 ∨ m % 4 = 2 ∨ m % 4 = 3 := by omega
    unfold TurnedBy at h
    rcases hc with hc | hc | hc <;> rw [hc] at h
    · exact ZeroOrNaN.of ⟨S.ltrans h.2 h.1, S.trans h.1 h.2⟩
    · exact ZeroOrNaN.of h
    · exact ZeroOrNaN.of ⟨S.trans h.2 h.1, S.ltrans h.1 h.2⟩
  refine fin ?_ key
  split <;> omega

/-! ### Examples -/

/-- any sixteen numbers, and the same ones four places later -/
example (thr : Thr) (v : ℕ → Xmm Dbl64) : letI := avxBuild.arith Dbl64
    ∃ out out' : ℕ → Xmm Dbl64,
      ComputesIn (complexFFT (Xmm Dbl64) thr) 16 [(.fwd, Ptr.base 1)] (oneArray 16 v) (Region (Ptr.base 1) 16) (Ptr.base 1) 16 out ∧
      ComputesIn (complexFFT (Xmm Dbl64) thr) 16 [(.fwd, Ptr.base 1)]
        (oneArray 16 fun t => v ((t + 12) % 16)) (Region (Ptr.base 1) 16) (Ptr.base 1) 16 out' ∧
      ∀ t < 16, TurnedBy Ieee.signed (3 * t) (out t) (out' t) := by
  have ok := oneArray_ok 16 v
  have ok' := oneArray_ok 16 fun t => v ((t + 12) % 16)
  have h16 := validLen_of_le (n := 16) (by omega) (by omega)
  refine C95_quarter maxDbl_nonneg rnd64_neg avxBuild thr .complex (show intLen (16 : ℕ) from ⟨by norm_num, by norm_num⟩)
    (oneArray 16 v) (oneArray 16 _) (.fwd, Ptr.base 1) (.fwd, Ptr.base 1) v _ ok.wf ok'.wf ⟨h16, ok.arr.filled⟩ ⟨h16, ok'.arr.filled⟩ rfl
    (show 16 % 4 = 0 ∧ _ from ⟨by norm_num, .inr ⟨4, by norm_num⟩⟩) ok.arr ok'.arr (fun t ht => ?_)
  show Both Ieee.same (v t) (v (((t + 16 / 4) % 16 + 12) % 16))
  rw [show ((t + 16 / 4) % 16 + 12) % 16 = t by omega]
  exact both_same_refl _

/-- the ramp 0, 1, 2 four times: nothing but in every fourth element -/
example (thr : Thr) : letI := sse2Build.arith Dbl64
    ∃ out : ℕ → Xmm Dbl64,
      ComputesIn (complexFFT (Xmm Dbl64) thr) 12 [(.inv, Ptr.base 1)] (oneArray 12 fun t => ![⟨.num (t % 3 : ℕ) false⟩, ⟨.num 0 false⟩])
        (Region (Ptr.base 1) 12) (Ptr.base 1) 12 out ∧ ∀ t < 12, t % 4 ≠ 0 → ZeroOrNaN (out t) := by
  have ok := oneArray_ok 12 fun t => (![⟨.num (t % 3 : ℕ) false⟩, ⟨.num 0 false⟩] : Xmm Dbl64)
  have h12 := validLen_of_le (n := 12) (by omega) (by omega)
  obtain ⟨out, h, h1⟩ := C95_zeros sse2Build thr .complex (show intLen (12 : ℕ) from ⟨by norm_num, by norm_num⟩)
    (oneArray 12 _) (.inv, Ptr.base 1) _ ok.wf ⟨h12, ok.arr.filled⟩ (show 12 % 4 = 0 ∧ _ from ⟨by norm_num, .inl rfl⟩) ok.arr
  refine ⟨out, h, h1 fun t ht => ?_⟩
  show Both Ieee.same _ _
  rw [show ((t + 12 / 4) % 12) % 3 = t % 3 by omega]
  exact both_same_refl _

end OTFFT.Props
