/-
C64, C65: conjugating the input and multiplying it by the imaginary unit, exactly.
-/
import Verif.Spec.Sign
import Verif.Proof.Sign
import Verif.Proof.TimesI
import Verif.Props.Hom

namespace OTFFT.Props

variable [Libm]

section
variable {F : Type} [FArith F] [Inhabited F] {r : Bool → F → F → Prop}

/-! ### C64 -/

omit [Libm] in
/-- C64: for a length `2^k`, `1 ≤ k ≤ 24`, the inverse transform of the conjugate of `x` is exactly, not only up to rounding, the
conjugate of the forward transform of `x` with the same normalisation: for every instruction set and every arithmetic that is
symmetric in signs. -/
theorem C64_conjugate (S : Signed r) (i : Target) (thr : Thr) {k n : ℕ} (hn : n = 2 ^ k) (h1 : 1 ≤ k) (hk : k ≤ 24)
    {w w' : World (Xmm F)} {x x' : Ptr} {v v' : ℕ → Xmm F} (hx : UserArray w x n v) (hx' : UserArray w' x' n v')
    (h : ∀ t < n, ConjOf r (v t) (v' t)) (e e' : Entry)
    (he : (e, e') ∈ [(Entry.fwd0, Entry.inv0), (.fwd0, .inv), (.fwdu, .invu), (.fwd, .invn), (.fwdn, .invn)]) :
    letI := i.arith F
    ∃ out out' : ℕ → Xmm F, Computes (complexFFT (Xmm F) thr) n [(e, x)] w x n out ∧
      Computes (complexFFT (Xmm F) thr) n [(e', x')] w' x' n out' ∧ ∀ t < n, ConjOf r (out t) (out' t) := by
  letI := i.arith F
  subst hn
  have hv := validLen_pow k h1 (by omega)
  refine ⟨_, _, ⟨FFT.calls (es := [e]) hv hx, FFT.lifetime_noFail _ (by have := hv.two; omega) _ (lenNat_calls _)⟩,
    ⟨FFT.calls (es := [e']) hv hx', FFT.lifetime_noFail _ (by have := hv.two; omega) _ (lenNat_calls _)⟩, ?_⟩
  intro t ht
  show ConjOf r (fftOut (Xmm F) thr e.isInv e.mode (2 ^ k) v t) (fftOut (Xmm F) thr e'.isInv e'.mode (2 ^ k) v' t)
  have hm : e.isInv = false ∧ e'.isInv = true ∧ e.mode = e'.mode := by
    simp only [List.mem_cons, Prod.mk.injEq, List.not_mem_nil, or_false] at he
    rcases he with ⟨rfl, rfl⟩ | ⟨rfl, rfl⟩ | ⟨rfl, rfl⟩ | ⟨rfl, rfl⟩ | ⟨rfl, rfl⟩ <;> exact ⟨rfl, rfl, rfl⟩
  rw [hm.1, hm.2.1, hm.2.2]
  exact (Target.conjLaws S i).fftOut_conj rfl hk h t ht

/-- C64: doubles. Only signs of zeros may differ; the statement includes inputs with infinities and NaN and overflow. -/
theorem C64_doubles (i : Target) (thr : Thr) {k n : ℕ} (hn : n = 2 ^ k) (h1 : 1 ≤ k) (hk : k ≤ 24)
    {w w' : World (Xmm Dbl64)} {x x' : Ptr} {v v' : ℕ → Xmm Dbl64} (hx : UserArray w x n v) (hx' : UserArray w' x' n v')
    (h : ∀ t < n, (v t 0).same (v' t 0) ∧ (v t 1).opp (v' t 1)) (e e' : Entry)
    (he : (e, e') ∈ [(Entry.fwd0, Entry.inv0), (.fwd0, .inv), (.fwdu, .invu), (.fwd, .invn), (.fwdn, .invn)]) :
    letI := i.arith Dbl64
    ∃ out out' : ℕ → Xmm Dbl64, Computes (complexFFT (Xmm Dbl64) thr) n [(e, x)] w x n out ∧
      Computes (complexFFT (Xmm Dbl64) thr) n [(e', x')] w' x' n out' ∧
      ∀ t < n, (out t 0).same (out' t 0) ∧ (out t 1).opp (out' t 1) :=
  C64_conjugate (Ieee.signed_laws maxDbl_nonneg rnd64_neg) i thr hn h1 hk hx hx' h e e' he

/-! ### C65 -/

omit [Libm] in
/-- C65: multiplying the input by the imaginary unit multiplies the result by it, exactly. The complex transforms: for all lengths
without fused multiply-add, for powers of two with it. -/
theorem C65_complex (S : Signed r) (i : Target) (thr : Thr) {n : ℕ} (hn : intLen n) (hi : i.fused = false ∨ ∃ k, n = 2 ^ k) :
    CarriesOver i thr .complex n (TimesI r) := by
  letI := i.arith F
  intro w w' c c' v v' hw hw' ok ok' hf hv hv' h
  refine ⟨_, _, Kind.computes thr hw hn ok hv, Kind.computes thr hw' hn ok' hv', ?_⟩
  rw [← hf]
  exact (Target.rotLaws S i).fftOut_hom (u := v) (hi.imp (fun hi => @Target.rotMulR _ _ _ S _ hi) id) h

omit [Libm] in
/-- C65: the class without a work array of its own -/
theorem C65_fft0 (S : Signed r) (i : Target) (thr : Thr) {n : ℕ} (hn : intLen n) (hi : i.fused = false ∨ ∃ k, n = 2 ^ k) :
    CarriesOver i thr .fft0 n (TimesI r) := by
  letI := i.arith F
  intro w w' c c' v v' hw hw' ok ok' hf hv hv' h
  refine ⟨_, _, Kind.computes thr hw hn ok hv, Kind.computes thr hw' hn ok' hv', ?_⟩
  rw [← hf]
  exact (Target.rotLaws S i).fftOut_hom (u := v) (hi.imp (fun hi => @Target.rotMulR _ _ _ S _ hi) id) h

omit [Libm] in
/-- C65: Bluestein's algorithm, without fused multiply-add. -/
theorem C65_bluestein (S : Signed r) (i : Target) (thr : Thr) {n : ℕ} (hn : blueLen n) (hi : i.fused = false) :
    CarriesOver i thr .bluestein n (TimesI r) := by
  letI := i.arith F
  intro w w' c c' v v' hw hw' ok ok' hf hv hv' h
  refine ⟨_, _, Kind.computes thr hw hn ok hv, Kind.computes thr hw' hn ok' hv', ?_⟩
  rw [← hf]
  have hM : LinLaws.MulR (E := F) (A := Xmm F) (F := F) (C := Xmm F) fun _ a b => TimesI r a b := fun {c a a'} => Target.rotMulR S hi (c := c)
  have hC : LinLaws.CMulR (E := F) (A := Xmm F) (F := F) (C := Xmm F) fun _ a b => TimesI r a b := fun {c a a'} => Target.rotCMulR S i (c := c)
  exact (Target.rotLaws S i).blueOut_hom (u := v) @hM @hC
    (lenOK_of (k := .bluestein) ok) (Kind.fn .bluestein c) h

end

/-- C65: doubles -/
theorem C65_doubles (i : Target) (thr : Thr) {n : ℕ} (hn : intLen n) (hi : i.fused = false ∨ ∃ k, n = 2 ^ k) :
    CarriesOver (F := Dbl64) i thr .complex n (fun a b => (a 1).opp (b 0) ∧ (a 0).same (b 1)) :=
  C65_complex (r := Ieee.signed) (Ieee.signed_laws maxDbl_nonneg rnd64_neg) i thr hn hi

/-! ### Examples -/

/-- length 64, arbitrary doubles -/
example (thr : Thr) (v : ℕ → Xmm Dbl64) : letI := avxBuild.arith Dbl64
    ∃ out out' : ℕ → Xmm Dbl64,
      Computes (complexFFT (Xmm Dbl64) thr) 64 [(.fwdu, Ptr.base 1)] (oneArray 64 v) (Ptr.base 1) 64 out ∧
      Computes (complexFFT (Xmm Dbl64) thr) 64 [(.invu, Ptr.base 1)] (oneArray 64 fun t => ![v t 0, fneg (v t 1)]) (Ptr.base 1) 64 out' ∧
      ∀ t < 64, (out t 0).same (out' t 0) ∧ (out t 1).opp (out' t 1) := by
  have S := Ieee.signed_laws (ρ := rnd64) maxDbl_nonneg rnd64_neg
  exact C64_doubles avxBuild thr (k := 6) (by norm_num) (by norm_num) (by norm_num) (oneArray_ok 64 v)
    (oneArray_ok 64 fun t => (![v t 0, fneg (v t 1)] : Xmm Dbl64)) (fun t _ => ⟨S.refl _, S.neg (S.refl _)⟩) _ _ (by simp)

/-- length 12 without and length 16 with fused multiply-add -/
example (thr : Thr) : CarriesOver (F := Dbl64) sse2Build thr .complex 12 (fun a b => (a 1).opp (b 0) ∧ (a 0).same (b 1)) ∧
    CarriesOver (F := Dbl64) avxBuild thr .complex 16 (fun a b => (a 1).opp (b 0) ∧ (a 0).same (b 1)) :=
  ⟨C65_doubles sse2Build thr (show intLen (12 : ℕ) from ⟨by norm_num, by norm_num⟩) (.inl rfl),
    C65_doubles avxBuild thr (show intLen (16 : ℕ) from ⟨by norm_num, by norm_num⟩) (.inr ⟨4, by norm_num⟩)⟩

end OTFFT.Props
