/-
C96: cosine transforms of reversed signals.
-/
import Verif.Spec.Reverse
import Verif.Props.Alternate

namespace OTFFT.Props

section
variable {F : Type} [FArith F] [Inhabited F]

theorem sg_decide (t : ℕ) : sg false t = decide (t % 2 = 1) := by
  unfold sg
  rcases Nat.mod_two_eq_zero_or_one t with h | h <;> simp [h]

theorem dctEntry_real_mem {e : DctEntry} : (e ∈ [DctEntry.fwd, .fwd0, .fwdn] → e.isInv = false ∧ e.real.isInv = false) ∧
    (e ∈ [DctEntry.inv, .inv0, .invn] → e.isInv = true ∧ e.real.isInv = true ∧ e.real ∈ [Entry.inv, .inv0, .invu, .invn]) := by
  cases e <;> simp [DctEntry.isInv, DctEntry.real, Entry.isInv]

/-- forward cosine transforms of a signal and of its reverse: the odd operands of the real transform are delayed by half -/
theorem cos_reverse_out {r : Bool → F → F → Prop} (h : HalfRel r) (i : Target) (thr : Thr) {n : ℕ} (h0 : 0 < n) (h4 : n % 4 = 0) (s : Bool)
    {e : DctEntry} (he : e ∈ [DctEntry.fwd, .fwd0, .fwdn]) {d d' : ℕ → F} (hx : ∀ t < n, r s (d t) (d' (n - 1 - t))) :
    letI := i.arith F
    ∀ t < n, r (sg s t) (dctOut (Xmm F) thr e n (doubles d) t 0) (dctOut (Xmm F) thr e n (doubles d') t 0) := by
  letI := i.arith F
  intro t ht
  obtain ⟨m, rfl, hm⟩ : ∃ m, n = 2 * m ∧ m % 2 = 0 := ⟨n / 2, by omega, by omega⟩
  have L := fun s => both3_homLaws (h.pres s) i
  obtain ⟨hi, hr⟩ := dctEntry_real_mem.1 he
  let z : F := fofNat 0
  let o : Xmm F := CArith.cmk z z
  have hd : ∀ t < 2 * m, Both (r s) (doubles d t) (doubles d' (2 * m - 1 - t)) := fun t ht => ⟨hx t ht, (L s).zero⟩
  have hg : ∀ t < 2 * m, Both (r s) (dctGath m (doubles d) t) (dctGath m (doubles d') ((t + m) % (2 * m))) := by
    intro q hq
    unfold dctGath
    by_cases hc : q < m
    · rw [if_pos hc, Nat.mod_eq_of_lt (by omega), if_neg (by omega)]
      have := hd (2 * q) (by omega)
      rwa [show 2 * m - 1 - 2 * q = 2 * (2 * m - 1 - (q + m)) + 1 by omega] at this
    · rw [if_neg hc, show q + m = q - m + 2 * m by omega, Nat.add_mod_right, Nat.mod_eq_of_lt (by omega), if_pos (by omega)]
      have := hd (2 * (2 * m - 1 - q) + 1) (by omega)
      rwa [show 2 * m - 1 - (2 * (2 * m - 1 - q) + 1) = 2 * (q - m) by omega] at this
  have h1 : ¬ 2 * m = 1 := by omega
  have h2 : ¬ e.isInv = true := by rw [hi]; exact Bool.false_ne_true
  have h3 : ¬ e.real.isInv = true := by rw [hr]; exact Bool.false_ne_true
  have hR := (halfLaws h i).rfftFwd_half (thr := thr) (mode := e.real.mode) L hm hg t ht
  unfold dctOut rfftOut
  simp only [if_neg h1, if_neg h2, if_neg h3]
  rw [show 2 * m / 2 = m by omega, dctTw_eq i, dctTw_eq i]
  have P := L (sg s t)
  have M := P.muld (c := o) o (dctTab (Xmm F) (2 * m) t) hR
  rw [mulpd_arith i, mulpd_arith i] at M
  exact P.dadd (p := z) (q := z) M.1 M.2

/-- inverse cosine transforms of coefficients with opposite odd elements -/
theorem cos_alternate_out {r : Bool → F → F → Prop} (h : AltRel r) (i : Target) (thr : Thr) {n l : ℕ} (hl : 2 ≤ l) (hn2 : n = 2 ^ l) (s : Bool)
    {e : DctEntry} (he : e ∈ [DctEntry.inv, .inv0, .invn]) {d d' : ℕ → F} (hx : ∀ t < n, r (sg s t) (d t) (d' t)) :
    letI := i.arith F
    ∀ t < n, r s (dctOut (Xmm F) thr e n (doubles d) t 0) (dctOut (Xmm F) thr e n (doubles d') (n - 1 - t) 0) := by
  letI := i.arith F
  intro t ht
  obtain ⟨hi, hr, hmem⟩ := dctEntry_real_mem.2 he
  have L := fun s => both3_homLaws (h.pres s) i
  have hn : n = 2 * (n / 2) ∧ n / 2 % 2 = 0 ∧ 2 ≤ n / 2 := by
    have : 2 ^ l = 4 * 2 ^ (l - 2) := by rw [show (4 : ℕ) = 2 ^ 2 by norm_num, ← pow_add]; congr 1; omega
    have := Nat.two_pow_pos (l - 2)
    omega
  let z : F := fofNat 0
  let o : Xmm F := CArith.cmk z z
  have hd : ∀ t < n, Both (r (sg s t)) (doubles d t) (doubles d' t) := fun t ht => ⟨hx t ht, (L (sg s t)).zero⟩
  have hp : ∀ t ≤ n / 2, Both (r (sg s t)) (dctPreV (Xmm F) n (dctTab (Xmm F) n) (doubles d) t) (dctPreV (Xmm F) n (dctTab (Xmm F) n) (doubles d') t) := by
    intro t ht
    have G := L (sg s t)
    unfold dctPreV
    split
    · rename_i h0
      subst h0
      exact G.ofD_hom (y := z) (G.re (c := o) (hd 0 (by omega)))
    · have h1 := hd (n - t) (by omega)
      rw [show sg s (n - t) = sg s t from sg_congr (by omega)] at h1
      exact G.cmulL (c := o) o _ (G.pair (p := z) (q := z) (G.re (c := o) (hd t (by omega))) (G.dneg (p := z) (G.re (c := o) h1)))
  have h := alternate_real_out h i thr hl hn2 s hmem hp
  have h1 : ¬ n = 1 := by omega
  unfold dctOut
  rw [if_neg h1, if_neg h1, if_pos hi, if_pos hi]
  unfold dctScat
  by_cases hc : t % 2 = 0
  · rw [if_pos hc, if_neg (by omega)]
    have := h (t / 2) (by omega)
    rw [Nat.mod_eq_of_lt (by omega), show t / 2 + n / 2 = 2 * (n / 2) - 1 - (n - 1 - t) / 2 by omega] at this
    exact this.1
  · rw [if_neg hc, if_pos (by omega)]
    have := h (2 * (n / 2) - 1 - t / 2) (by omega)
    rw [show 2 * (n / 2) - 1 - t / 2 + n / 2 = (n - 1 - t) / 2 + n by omega, Nat.add_mod_right, Nat.mod_eq_of_lt (by omega)] at this
    exact this.1

theorem doubles_dct (i : Target) (thr : Thr) (e : DctEntry) (n : ℕ) (d : ℕ → F) : letI := i.arith F
    dctOut (Xmm F) thr e n (doubles d) = fun t => ![dctOut (Xmm F) thr e n (doubles d) t 0, fofNat 0] := by
  letI := i.arith F
  funext t
  exact (dct_cell i thr e n (v := doubles d) (t := t) ⟨_, rfl⟩).1.symm

/-- a call of `RealDCT` or `DCT0` computes `dctOut` -/
theorem cosine_computes (i : Target) (thr : Thr) {k : Kind} {n : ℕ} (hn : k.setupOK n) : letI := i.arith F
    ∀ {w : World (Xmm F)} {c : (k.cls (Xmm F) thr).Call} {d : ℕ → F}, w.WF → k.callOK n c w.heap →
      Arr w.heap (k.input c) n (fun t => ![d t, fofNat 0]) → (hk : k = .dct ∨ k = .dct0) → ∀ {e : DctEntry}, HEq (k.fn c) e →
      ComputesIn (k.cls (Xmm F) thr) n [c] w (k.writes n c) (k.output c) n
        (fun t => ![dctOut (Xmm F) thr e n (doubles d) t 0, fofNat 0]) := by
  letI := i.arith F
  intro w c d hw ok hv hk e he
  rw [← doubles_dct]
  rcases hk with rfl | rfl
  · cases eq_of_heq he
    exact Kind.computes (k := .dct) thr hw hn ok hv
  · cases eq_of_heq he
    exact Kind.computes (k := .dct0) thr hw hn ok hv

theorem Kind.CosineForward.entry {k : Kind} {f : k.Fn} (h : k.CosineForward f) :
    (k = .dct ∨ k = .dct0) ∧ ∃ e : DctEntry, HEq f e ∧ e ∈ [DctEntry.fwd, .fwd0, .fwdn] := by
  cases k with
  | dct => exact ⟨.inl rfl, f, HEq.rfl, h⟩
  | dct0 => exact ⟨.inr rfl, f, HEq.rfl, h⟩
  | complex => exact h.elim
  | real => exact h.elim
  | bluestein => exact h.elim
  | fft0 => exact h.elim

theorem Kind.CosineInverse.entry {k : Kind} {f : k.Fn} (h : k.CosineInverse f) :
    (k = .dct ∨ k = .dct0) ∧ ∃ e : DctEntry, HEq f e ∧ e ∈ [DctEntry.inv, .inv0, .invn] := by
  cases k with
  | dct => exact ⟨.inl rfl, f, HEq.rfl, h⟩
  | dct0 => exact ⟨.inr rfl, f, HEq.rfl, h⟩
  | complex => exact h.elim
  | real => exact h.elim
  | bluestein => exact h.elim
  | fft0 => exact h.elim

/-- C96 for any such relations -/
theorem cosine_reverse {r : Bool → F → F → Prop} (h : HalfRel r) (i : Target) (thr : Thr) (k : Kind) {n : ℕ} (h0 : 0 < n) (h4 : n % 4 = 0)
    (hn : k.setupOK n) : CosineReverse i thr k n r := by
  letI := i.arith F
  intro w w' c c' d d' hw hw' ok ok' hf hc hv hv' hx
  obtain ⟨hk, e, he, hm⟩ := Kind.CosineForward.entry hc
  refine ⟨_, _, cosine_computes i thr hn hw ok hv hk he, cosine_computes i thr hn hw' ok' hv' hk (hf ▸ he), fun t ht => ?_⟩
  have := cos_reverse_out h i thr h0 h4 false hm hx t ht
  rwa [sg_decide] at this

theorem cosine_alternate {r : Bool → F → F → Prop} (h : AltRel r) (i : Target) (thr : Thr) (k : Kind) {n l : ℕ} (hl : 2 ≤ l) (hn2 : n = 2 ^ l)
    (hn : k.setupOK n) : CosineAlternate i thr k n r := by
  letI := i.arith F
  intro w w' c c' d d' hw hw' ok ok' hf hc hv hv' hx
  obtain ⟨hk, e, he, hm⟩ := Kind.CosineInverse.entry hc
  refine ⟨_, _, cosine_computes i thr hn hw ok hv hk he, cosine_computes i thr hn hw' ok' hv' hk (hf ▸ he), ?_⟩
  exact cos_alternate_out h i thr hl hn2 false hm fun t ht => by rw [sg_decide]; exact hx t ht

end

variable [Libm]

section ieee
variable {ρ : ℝ → ℝ} {Ω : ℝ}

/-- C96: in IEEE 754 arithmetic, the forward cosine transform of the reverse of a signal has, bit for bit, the even coefficients
of the signal, and minus the odd ones, whatever rounding does, also with overflow, infinities and NaN; only signs of zeros may
differ. Every length that 4 divides, entry point, instruction set and threshold, `RealDCT` and `DCT0`. -/
theorem C96_reverse (h0 : 0 ≤ Ω) (hρ : ∀ x, ρ (-x) = -ρ x) (i : Target) (thr : Thr) (k : Kind) {n : ℕ} (hp : 0 < n) (h4 : n % 4 = 0)
    (hn : k.setupOK n) : CosineReverse (F := Ieee ρ Ω) i thr k n fun s => if s then Ieee.opp else Ieee.same :=
  cosine_reverse (ieee_half h0 hρ) i thr k hp h4 hn

/-- C96: changing the sign of the odd coefficients reverses the result of the inverse cosine transform, bit for bit, in the same
sense. Lengths that are powers of two, at least 4. -/
theorem C96_inverse (h0 : 0 ≤ Ω) (hρ : ∀ x, ρ (-x) = -ρ x) (i : Target) (thr : Thr) (k : Kind) {n l : ℕ} (hl : 2 ≤ l) (hn2 : n = 2 ^ l)
    (hn : k.setupOK n) : CosineAlternate (F := Ieee ρ Ω) i thr k n fun s => if s then Ieee.opp else Ieee.same :=
  cosine_alternate (ieee_alt h0 hρ) i thr k hl hn2 hn

end ieee

/-- C96: the odd coefficients of a signal that reads the same backwards are exactly zero, and so are the even coefficients of a
signal that reads the same backwards but for the sign (NaN only if something overflows or the input contains infinities or NaN):
IEEE 754 doubles, no rounding error. -/
theorem C96_zeros (i : Target) (thr : Thr) (k : Kind) {n : ℕ} (hp : 0 < n) (h4 : n % 4 = 0) (hn : k.setupOK n) :
    letI := i.arith Dbl64
    ∀ (w : World (Xmm Dbl64)) (c : (k.cls (Xmm Dbl64) thr).Call) (d : ℕ → Dbl64), w.WF → k.callOK n c w.heap → k.CosineForward (k.fn c) →
      Arr w.heap (k.input c) n (fun t => ![d t, fofNat 0]) →
      ∃ out : ℕ → Dbl64, ComputesIn (k.cls (Xmm Dbl64) thr) n [c] w (k.writes n c) (k.output c) n (fun t => ![out t, fofNat 0]) ∧
        ((∀ t < n, Ieee.same (d t) (d (n - 1 - t))) → ∀ t < n, t % 2 = 1 → IsZero (out t) ∨ (out t).isNaN) ∧
        ((∀ t < n, Ieee.opp (d t) (d (n - 1 - t))) → ∀ t < n, t % 2 = 0 → IsZero (out t) ∨ (out t).isNaN) := by
  letI := i.arith Dbl64
  intro w c d hw ok hc hv
  obtain ⟨hk, e, he, hm⟩ := Kind.CosineForward.entry hc
  refine ⟨_, cosine_computes i thr hn hw ok hv hk he, fun h t ht h1 => ?_, fun h t ht h1 => ?_⟩
  · have := cos_reverse_out (ieee_half maxDbl_nonneg rnd64_neg) i thr hp h4 false hm h t ht
    rw [sg_decide, decide_eq_true h1] at this
    exact zero_or_nan this
  · have := cos_reverse_out (ieee_half maxDbl_nonneg rnd64_neg) i thr hp h4 true hm h t ht
    unfold sg at this
    rw [if_pos h1] at this
    exact zero_or_nan this

/-- C96: coefficients that are zero at all odd places give a signal that reads exactly the same backwards, and coefficients
that are zero at all even places one that reads the same but for the sign. IEEE 754 doubles, lengths that are powers of two. -/
theorem C96_inverse_symmetric (i : Target) (thr : Thr) (k : Kind) {n l : ℕ} (hl : 2 ≤ l) (hn2 : n = 2 ^ l) (hn : k.setupOK n) :
    letI := i.arith Dbl64
    ∀ (w : World (Xmm Dbl64)) (c : (k.cls (Xmm Dbl64) thr).Call) (d : ℕ → Dbl64), w.WF → k.callOK n c w.heap → k.CosineInverse (k.fn c) →
      Arr w.heap (k.input c) n (fun t => ![d t, fofNat 0]) →
      ∃ out : ℕ → Dbl64, ComputesIn (k.cls (Xmm Dbl64) thr) n [c] w (k.writes n c) (k.output c) n (fun t => ![out t, fofNat 0]) ∧
        ((∀ t < n, t % 2 = 1 → IsZero (d t)) → ∀ t < n, Ieee.same (out t) (out (n - 1 - t))) ∧
        ((∀ t < n, t % 2 = 0 → IsZero (d t)) → ∀ t < n, Ieee.opp (out t) (out (n - 1 - t))) := by
  letI := i.arith Dbl64
  intro w c d hw ok hc hv
  obtain ⟨hk, e, he, hm⟩ := Kind.CosineInverse.entry hc
  refine ⟨_, cosine_computes i thr hn hw ok hv hk he, fun h => ?_, fun h => ?_⟩
  · have hx : ∀ t < n, (fun s : Bool => if s then Ieee.opp else Ieee.same) (sg false t) (d t) (d t) := fun t ht => by
      rcases Nat.mod_two_eq_zero_or_one t with e | e
      · rw [show sg false t = false by unfold sg; rw [if_pos e]]; exact same_self (d t).d
      · rw [show sg false t = true by unfold sg; rw [if_neg (by omega)]; rfl]; exact (h t ht e).opp
    exact cos_alternate_out (ieee_alt maxDbl_nonneg rnd64_neg) i thr hl hn2 false hm hx
  · have hx : ∀ t < n, (fun s : Bool => if s then Ieee.opp else Ieee.same) (sg true t) (d t) (d t) := fun t ht => by
      rcases Nat.mod_two_eq_zero_or_one t with e | e
      · rw [show sg true t = true by unfold sg; rw [if_pos e]]; exact (h t ht e).opp
      · rw [show sg true t = false by unfold sg; rw [if_neg (by omega)]; rfl]; exact same_self (d t).d
    exact cos_alternate_out (ieee_alt maxDbl_nonneg rnd64_neg) i thr hl hn2 true hm hx

/-! ### Examples -/

/-- any twelve doubles, and the same backwards -/
example (thr : Thr) (d : ℕ → Dbl64) : letI := avxBuild.arith Dbl64
    ∃ out out' : ℕ → Dbl64,
      ComputesIn (realDCT (Xmm Dbl64) thr) 12 [(.fwd, Ptr.base 1)] (oneArray 12 fun t => ![d t, fofNat 0]) (Region (Ptr.base 1) 12) (Ptr.base 1) 12
        (fun t => ![out t, fofNat 0]) ∧
      ComputesIn (realDCT (Xmm Dbl64) thr) 12 [(.fwd, Ptr.base 1)] (oneArray 12 fun t => ![d (11 - t), fofNat 0]) (Region (Ptr.base 1) 12) (Ptr.base 1) 12
        (fun t => ![out' t, fofNat 0]) ∧
      ∀ t < 12, (if t % 2 = 1 then Ieee.opp else Ieee.same) (out t) (out' t) := by
  have ok := oneArray_ok 12 fun t => (![d t, fofNat 0] : Xmm Dbl64)
  have ok' := oneArray_ok 12 fun t => (![d (11 - t), fofNat 0] : Xmm Dbl64)
  have hl : RealLen 12 := realLen_of_le (m := 6) (by norm_num) (by norm_num)
  obtain ⟨out, out', h, h', hh⟩ := C96_reverse maxDbl_nonneg rnd64_neg avxBuild thr .dct (n := 12) (by norm_num) (by norm_num)
    (show dctLen (12 : ℕ) from ⟨by norm_num, by norm_num⟩)
    (oneArray 12 _) (oneArray 12 _) (.fwd, Ptr.base 1) (.fwd, Ptr.base 1) d (fun t => d (11 - t)) ok.wf ok'.wf ⟨hl, ok.arr.filled⟩ ⟨hl, ok'.arr.filled⟩ rfl
    (by simp [Kind.CosineForward, Kind.fn]) ok.arr ok'.arr (fun t ht => by
      show (d t).d.same (d (11 - (12 - 1 - t))).d
      rw [show 11 - (12 - 1 - t) = t by omega]
      exact same_self _)
  refine ⟨out, out', h, h', fun t ht => ?_⟩
  have := hh t ht
  rcases Nat.mod_two_eq_zero_or_one t with e | e
  · rw [if_neg (by omega)]
    rwa [show decide (t % 2 = 1) = false by simp [e]] at this
  · rw [if_pos e]
    rwa [show decide (t % 2 = 1) = true by simp [e]] at this

/-- eight doubles and their mirror image: nothing in the odd coefficients -/
example (thr : Thr) (a : ℕ → Dbl64) : letI := sse2Build.arith Dbl64
    ∃ out : ℕ → Dbl64,
      ComputesIn (realDCT (Xmm Dbl64) thr) 16 [(.fwd0, Ptr.base 1)] (oneArray 16 fun t => ![a (min t (15 - t)), fofNat 0])
        (Region (Ptr.base 1) 16) (Ptr.base 1) 16 (fun t => ![out t, fofNat 0]) ∧ ∀ t < 16, t % 2 = 1 → IsZero (out t) ∨ (out t).isNaN := by
  have ok := oneArray_ok 16 fun t => (![a (min t (15 - t)), fofNat 0] : Xmm Dbl64)
  have hl : RealLen 16 := realLen_of_le (m := 8) (by norm_num) (by norm_num)
  obtain ⟨out, h, h1, -⟩ := C96_zeros sse2Build thr .dct (n := 16) (by norm_num) (by norm_num) (show dctLen (16 : ℕ) from ⟨by norm_num, by norm_num⟩)
    (oneArray 16 _) (.fwd0, Ptr.base 1) (fun t => a (min t (15 - t))) ok.wf ⟨hl, ok.arr.filled⟩ (by simp [Kind.CosineForward, Kind.fn]) ok.arr
  refine ⟨out, h, h1 fun t ht => ?_⟩
  show (a _).d.same (a _).d
  rw [show min (16 - 1 - t) (15 - (16 - 1 - t)) = min t (15 - t) by omega]
  exact same_self _

end OTFFT.Props
