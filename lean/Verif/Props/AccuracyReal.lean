/-
C47: accuracy of the real and cosine transforms in IEEE double precision.
-/
import Verif.Proof.RoundReal
import Verif.Props.Accuracy
import Verif.Props.DCT

namespace OTFFT.Props

section
variable {F : Type} [FArith F] [Inhabited F] {val : F → ℝ} {fin : F → Prop} {n : ℕ} {M : ℝ}

/-- the contents of an array of doubles -/
def doubles (d : ℕ → F) : ℕ → Xmm F := fun t => ![d t, fofNat 0]

theorem small_ok (hm : 1 / 2 ^ 970 ≤ M) : (1:ℝ) / 2 ^ 1010 ≤ 1 / 2 ^ 31 * M := by
  refine le_trans ?_ (mul_le_mul_of_nonneg_left hm (by positivity))
  rw [div_mul_div_comm, one_mul, ← pow_add]
  exact one_div_le_one_div_of_le (by positivity) (pow_le_pow_right₀ (by norm_num) (by norm_num))

theorem scaled_ok (h1 : 1 ≤ n) (h31 : n ≤ 2 ^ 31) (mode : ScaleMode) (hm : 1 / 2 ^ 970 ≤ M) :
    (1:ℝ) / 2 ^ 1010 ≤ scR n mode * M :=
  le_trans (small_ok hm) (mul_le_mul_of_nonneg_right (ApLaws.scR_range n mode h1 h31).1 (le_trans (by positivity) hm))

/-- doubles are exact -/
theorem in_real (hF : Binary64 F val fin) (hm : 1 / 2 ^ 970 ≤ M) {d : F} (hd : fin d ∧ |val d| ≤ M) :
    (dblFlt hF).Ap (val d : ℂ) ![d, fofNat 0] M 0 :=
  Flt.Ap.real_iff.2 ⟨le_trans (one_div_le_one_div_of_le (by positivity) (pow_le_pow_right₀ (by norm_num) (by norm_num))) hm,
    fun _ _ => ⟨hd.1, hd.2, by simp [dblFlt]⟩⟩

theorem in_cpx (hF : Binary64 F val fin) (hm : 1 / 2 ^ 970 ≤ M) {z : Xmm F} (hz : cfin fin z ∧ ‖cval val z‖ ≤ M) :
    (dblFlt hF).Ap (cval val z) z M 0 :=
  ⟨le_trans (one_div_le_one_div_of_le (by positivity) (pow_le_pow_right₀ (by norm_num) (by norm_num))) hm,
    fun _ _ => ⟨hz.1, hz.2, by simp [Flt.cv, dblFlt]⟩⟩

/-- from the relation to the bound -/
theorem out_err (hF : Binary64 F val fin) {a : ℂ} {z : Xmm F} {B : ℝ} {k : ℕ} (h : (dblFlt hF).Ap a z B k) (hB : B ≤ 2 ^ 1019)
    (hk : k ≤ 2 ^ 52) : cfin fin z ∧ ‖cval val z - a‖ ≤ k / 2 ^ 52 * B := by
  obtain ⟨f, -, e⟩ := h.2 hB hk
  refine ⟨f, le_trans e ?_⟩
  have hp := pow_sub_one_le (dblFlt hF).u_nonneg ((dblFlt hF).pow_le_two hk)
  refine le_trans (mul_le_mul_of_nonneg_left hp h.nonneg) (le_of_eq ?_)
  rw [show (dblFlt hF).u = 1 / 2 ^ 53 from rfl]
  ring

theorem half_weight (h31 : n ≤ 2 ^ 31) : errWeight (n / 2) + errWeight (n / 2) + 234 ≤ 2 ^ 52 := by
  have := errWeight_le (n / 2)
  omega

theorem scaled_le (h1 : 1 ≤ n) (h31 : n ≤ 2 ^ 31) (mode : ScaleMode) (hM : 0 ≤ M) {c G : ℝ} (hc : 0 ≤ c) (hG : c * (n * M) ≤ G) :
    c * (n * (scR n mode * M)) ≤ G := by
  have hs := ApLaws.scR_range n mode h1 h31
  refine le_trans (mul_le_mul_of_nonneg_left (mul_le_mul_of_nonneg_left ?_ (Nat.cast_nonneg n)) hc) hG
  nlinarith [hs.2]

theorem three_G (hM : n * M ≤ 2 ^ 1016) : 3 * (n * M) ≤ (2:ℝ) ^ 1019 := by
  have e : (2:ℝ) ^ 1019 = 2 ^ 1016 * 8 := by rw [show 1019 = 1016 + 3 from rfl, pow_add]; norm_num
  rw [e]
  clear e
  have : (0:ℝ) < 2 ^ 1016 := by positivity
  generalize (2:ℝ) ^ 1016 = A at *
  linarith

theorem dct_G (hM : n * M ≤ 2 ^ 1016) : 9 / 2 * (n * M) ≤ (2:ℝ) ^ 1019 := by
  have e : (2:ℝ) ^ 1019 = 2 ^ 1016 * 8 := by rw [show 1019 = 1016 + 3 from rfl, pow_add]; norm_num
  rw [e]
  clear e
  have : (0:ℝ) < 2 ^ 1016 := by positivity
  generalize (2:ℝ) ^ 1016 = A at *
  linarith

theorem RealLen.le31 (h : RealLen n) : n ≤ 2 ^ 31 := by
  rcases h with rfl | ⟨m, rfl, -, h⟩ <;> omega

variable {w : World (Xmm F)} {x y z : Ptr}

/-- the results of inverse real transforms are doubles -/
theorem rfft_cell (i : Target) (thr : Thr) {e : Entry} (he : e.isInv = true) (n : ℕ) (v : ℕ → Xmm F) (t : ℕ) :
    letI := i.arith F
    doubles (fun t => rfftOut (Xmm F) thr e n v t 0) t = rfftOut (Xmm F) thr e n v t := by
  letI := i.arith F
  have h : ∃ r : F, rfftOut (Xmm F) thr e n v t = ![r, fofNat 0] := by
    unfold rfftOut
    split
    · exact ⟨_, rfl⟩
    · unfold rfftInvOut unpackD
      split <;> exact ⟨_, rfl⟩
  obtain ⟨r, h⟩ := h
  show ![rfftOut (Xmm F) thr e n v t 0, fofNat 0] = _
  rw [h]
  rfl

/-- the results of the cosine transforms are doubles -/
theorem dct_cell (i : Target) (thr : Thr) (e : DctEntry) (n : ℕ) {v : ℕ → Xmm F} {t : ℕ} (hv : ∃ r : F, v t = ![r, fofNat 0]) :
    letI := i.arith F
    doubles (fun t => dctOut (Xmm F) thr e n v t 0) t = dctOut (Xmm F) thr e n v t ∧
      ∃ r : F, dctOut (Xmm F) thr e n v t = ![r, fofNat 0] := by
  letI := i.arith F
  have h : ∃ r : F, dctOut (Xmm F) thr e n v t = ![r, fofNat 0] := by
    unfold dctOut
    split
    · exact hv
    · split
      · rename_i h1 hi
        unfold dctScat
        have := fun t => rfft_cell i thr (e := e.real) (by rw [DctEntry.real_isInv, hi]) n (dctPreV (Xmm F) n (dctTab (Xmm F) n) v) t
        split
        · rw [← this]; exact ⟨_, rfl⟩
        · rw [← this]; exact ⟨_, rfl⟩
      · unfold dctTw
        split <;> exact ⟨_, rfl⟩
  refine ⟨?_, h⟩
  obtain ⟨r, h⟩ := h
  show ![dctOut (Xmm F) thr e n v t 0, fofNat 0] = _
  rw [h]
  rfl

/-- C47: forward real transforms. Every output is finite and off by at most
`(errWeight(n/2) + 84) · 2⁻⁵² · 3 · factor · n · M`. -/
theorem C47_real_forward (hF : Binary64 F val fin) (i : Target) (thr : Thr) (hn : RealLen n) (wf : w.WF) {d : ℕ → F}
    (hx : Arr w.heap x n (doubles d)) (hy : Alloc w.heap y n) (hxy : Sep x n y n) (hm : 1 / 2 ^ 970 ≤ M) (hM : n * M ≤ 2 ^ 1016)
    (hd : ∀ t < n, fin (d t) ∧ |val (d t)| ≤ M) (e : Entry) (he : e ∈ [Entry.fwd, .fwd0, .fwdu, .fwdn]) :
    letI := i.arith F
    ∃ out : ℕ → Xmm F, Computes (realFFT (Xmm F) thr) n [(e, x, y)] w y n out ∧
      ∀ t < n, cfin fin (out t) ∧ ‖cval val (out t) - e.exact n (Spec.ofReal fun j => val (d j)) t‖ ≤
        (errWeight (n / 2) + 84) / 2 ^ 52 * (3 * (n * (e.factor n * M))) := by
  letI := i.arith F
  have hi : e.isInv = false := by
    simp only [List.mem_cons, List.not_mem_nil, or_false] at he
    rcases he with rfl | rfl | rfl | rfl <;> rfl
  have hpos := hn.pos
  have h31 := RealLen.le31 hn
  have hM0 : 0 ≤ M := le_trans (by positivity) hm
  have a : RealArgs w e n x y (doubles d) := ⟨wf, hn, by rw [rfftNeed, hi]; exact hx, hx.alloc, hy, hxy⟩
  refine ⟨_, ComputesIn.toComputes (RFFT.computes (thr := thr) a) (by rw [rfftDirty, hi]; exact le_refl _) (fun _ _ => rfl), fun t ht => ?_⟩
  have h := ((dblFlt hF).apReal i).rfftOut_ap (thr := thr) hn e (three_G hM) (scaled_ok hpos h31 e.mode hm)
    (v := Spec.ofReal fun j => val (d j)) (v' := doubles d) (fun t ht => in_real hF hm (hd t (by
      rw [rfftNeed, hi] at ht; exact ht))) t ht
  have hf : scR n e.mode = e.factor n := by cases e <;> rfl
  have hw := half_weight h31
  have := out_err hF h (scaled_le hpos h31 e.mode hM0 (by norm_num) (three_G hM)) (by omega)
  rw [rfftOut_fwd thr hi hn _ ht, hf] at this
  have hex : scC n e.mode * Spec.dft n (fun j => ((Spec.ofReal (fun j => val (d j)) j).re : ℂ)) t =
      e.exact n (Spec.ofReal fun j => val (d j)) t := by
    rw [scC_eq, hf]
    cases e <;> first | rfl | cases hi
  rw [hex] at this
  refine ⟨this.1, le_trans this.2 (le_of_eq ?_)⟩
  push_cast
  ring

/-- C47: inverse real transforms of a conjugate symmetric vector `X` of which the first `n/2+1` entries are given. The same
bound. -/
theorem C47_real_inverse (hF : Binary64 F val fin) (i : Target) (thr : Thr) (hn : RealLen n) (wf : w.WF) {v : ℕ → Xmm F}
    (hx : Arr w.heap x (n / 2 + 1) v) (hx' : Alloc w.heap x n) (hy : Alloc w.heap y n) (hxy : Sep x n y n)
    (hm : 1 / 2 ^ 970 ≤ M) (hM : n * M ≤ 2 ^ 1016) (hv : ∀ t ≤ n / 2, cfin fin (v t) ∧ ‖cval val (v t)‖ ≤ M)
    {X : ℕ → ℂ} (hX : Spec.Hermitian n X) (hXv : ∀ t ≤ n / 2, X t = cval val (v t)) (e : Entry)
    (he : e ∈ [Entry.inv, .inv0, .invu, .invn]) :
    letI := i.arith F
    ∃ out : ℕ → F, ComputesIn (realFFT (Xmm F) thr) n [(e, x, y)] w (Region x n) y n (doubles out) ∧
      ∀ t < n, fin (out t) ∧ ‖(val (out t) : ℂ) - e.exact n X t‖ ≤
        (errWeight (n / 2) + 84) / 2 ^ 52 * (3 * (n * (e.factor n * M))) := by
  letI := i.arith F
  have hi : e.isInv = true := by
    simp only [List.mem_cons, List.not_mem_nil, or_false] at he
    rcases he with rfl | rfl | rfl | rfl <;> rfl
  have hpos := hn.pos
  have h31 := RealLen.le31 hn
  have hM0 : 0 ≤ M := le_trans (by positivity) hm
  have a : RealArgs w e n x y v := ⟨wf, hn, by rw [rfftNeed, hi]; exact hx, hx', hy, hxy⟩
  have hcell := fun t => rfft_cell i thr hi n v t
  refine ⟨fun t => rfftOut (Xmm F) thr e n v t 0, ?_, fun t ht => ?_⟩
  · obtain ⟨h1, h2⟩ := RFFT.computes (thr := thr) a
    refine ⟨Act.wp_mono h1 ?_, h2⟩
    rintro ok w' ⟨a', b, c⟩
    refine ⟨a', fun hok => ⟨(b hok).1.congr fun t ht => (hcell t).symm, fun l hl => (b hok).2 l fun h => hl ?_⟩, c⟩
    rw [rfftDirty, hi] at h
    rcases h with h | h | h
    · exact Or.inl h
    · exact Or.inr h
    · exact Or.inl h
  have h := ((dblFlt hF).apReal i).rfftOut_ap (thr := thr) hn e (three_G hM) (scaled_ok hpos h31 e.mode hm)
    (v := X) (v' := v) (fun t ht => by
      rw [rfftNeed, hi, if_pos rfl] at ht
      rw [hXv t (by omega)]
      exact in_cpx hF hm (hv t (by omega))) t ht
  have hf : scR n e.mode = e.factor n := by cases e <;> rfl
  have hw := half_weight h31
  have := out_err hF h (scaled_le hpos h31 e.mode hM0 (by norm_num) (three_G hM)) (by omega)
  rw [rfftOut_inv thr hi hn hX ht, hf, ← hcell t] at this
  have hex : scC n e.mode * Spec.idft n X t = e.exact n X t := by
    rw [scC_eq, hf]
    cases e <;> first | rfl | cases hi
  have hcv := (dblFlt hF).cv_real (rfftOut (Xmm F) thr e n v t 0)
  rw [hex, show cval val (doubles (fun t => rfftOut (Xmm F) thr e n v t 0) t) = (val (rfftOut (Xmm F) thr e n v t 0) : ℂ) from hcv] at this
  refine ⟨this.1.1, le_trans this.2 (le_of_eq ?_)⟩
  push_cast
  ring

/-- C47: cosine transforms: the error is at most `(errWeight(n/2) + 117) · 2⁻⁵² · 9/2 · factor · n · M`. -/
theorem C47_dct (hF : Binary64 F val fin) (i : Target) (thr : Thr) (hn : RealLen n) (h30 : n < 2 ^ 30) (wf : w.WF) {d : ℕ → F}
    (hx : Arr w.heap x n (doubles d)) (hm : 1 / 2 ^ 970 ≤ M) (hM : n * M ≤ 2 ^ 1016)
    (hd : ∀ t < n, fin (d t) ∧ |val (d t)| ≤ M) (e : DctEntry) :
    letI := i.arith F
    ∃ out : ℕ → F, Computes (realDCT (Xmm F) thr) n [(e, x)] w x n (doubles out) ∧
      ∀ t < n, fin (out t) ∧ |val (out t) - e.exact n (fun j => val (d j)) t| ≤
        (errWeight (n / 2) + 117) / 2 ^ 52 * (9 / 2 * (n * (e.factor n * M))) := by
  letI := i.arith F
  have hpos := hn.pos
  have h31 := RealLen.le31 hn
  have hM0 : 0 ≤ M := le_trans (by positivity) hm
  have hcell := fun t => (dct_cell (F := F) i thr e n (v := doubles d) (t := t) ⟨_, rfl⟩).1
  refine ⟨fun t => dctOut (Xmm F) thr e n (doubles d) t 0,
    ComputesIn.toComputes (DCT.computes (thr := thr) wf hn h30 hx [e]) (Set.empty_subset _) (fun t _ => (hcell t).symm), fun t ht => ?_⟩
  have h := ((dblFlt hF).apReal i).dctOut_ap (thr := thr) hn h30 e (dct_G hM) (scaled_ok hpos h31 e.mode hm)
    (v := Spec.ofReal fun j => val (d j)) (v' := doubles d) (fun t ht => in_real hF hm (hd t ht)) t ht
  have hf : scR n e.mode = e.factor n := by cases e <;> rfl
  have hw := half_weight h31
  have := out_err hF h (scaled_le hpos h31 e.mode hM0 (by norm_num) (dct_G hM)) (by omega)
  have hex : dctOut ℂ thr e n (Spec.ofReal fun j => val (d j)) t = (e.exact n (fun j => val (d j)) t : ℂ) := by
    cases hi : e.isInv with
    | false =>
      rw [dctOut_fwd thr hi hn _ ht, scC_eq, hf, ← Complex.ofReal_mul]
      cases e <;> first | rfl | cases hi
    | true =>
      rw [dctOut_inv thr hi hn _ ht, scC_eq, hf, ← Complex.ofReal_mul]
      cases e <;> first | rfl | cases hi
  have hcv := (dblFlt hF).cv_real (dctOut (Xmm F) thr e n (doubles d) t 0)
  rw [hex, hf, ← hcell t,
    show cval val (doubles (fun t => dctOut (Xmm F) thr e n (doubles d) t 0) t) = (val (dctOut (Xmm F) thr e n (doubles d) t 0) : ℂ) from hcv,
    ← Complex.ofReal_sub, Complex.norm_real, Real.norm_eq_abs] at this
  refine ⟨this.1.1, le_trans this.2 (le_of_eq ?_)⟩
  push_cast
  ring

theorem scR_pair {a b : ScaleMode} (h : scC n a * scC n b * n = 1) : scR n a * scR n b * n = 1 := by
  rw [scC_eq, scC_eq] at h
  exact_mod_cast h

theorem pow1016_15 {B : ℝ} (h : B ≤ 2 ^ 1015) {c : ℝ} (hc : c ≤ 16) (hB : 0 ≤ B) : c * B ≤ (2:ℝ) ^ 1019 := by
  have e : (2:ℝ) ^ 1019 = 2 ^ 1015 * 16 := by rw [show 1019 = 1015 + 4 from rfl, pow_add]; norm_num
  rw [e]
  clear e
  generalize (2:ℝ) ^ 1015 = A at *
  nlinarith

/-- C47: a forward real transform followed by the matching inverse gives the signal back up to
`2 · (errWeight(n/2) + 84) · 2⁻⁵² · 9 · n · M`. -/
theorem C47_real_roundtrip (hF : Binary64 F val fin) (i : Target) (thr : Thr) (hn : RealLen n) (wf : w.WF) {d : ℕ → F}
    (hx : Arr w.heap x n (doubles d)) (hy : Alloc w.heap y n) (hz : Alloc w.heap z n) (hxy : Sep x n y n) (hyz : Sep y n z n)
    (hm : 1 / 2 ^ 970 ≤ M) (hM : n * (n * M) ≤ 2 ^ 1015) (hd : ∀ t < n, fin (d t) ∧ |val (d t)| ≤ M) (f g : Entry)
    (hfg : (f, g) ∈ [(Entry.fwd, Entry.inv), (.fwd, .inv0), (.fwdn, .inv), (.fwdn, .inv0), (.fwd0, .invn), (.fwdu, .invu)]) :
    letI := i.arith F
    ∃ out : ℕ → F, ComputesIn (realFFT (Xmm F) thr) n [(f, x, y), (g, y, z)] w (Region y n) z n (doubles out) ∧
      ∀ t < n, fin (out t) ∧ |val (out t) - val (d t)| ≤ 2 * (errWeight (n / 2) + 84) / 2 ^ 52 * (9 * (n * M)) := by
  letI := i.arith F
  have hpos := hn.pos
  have h31 := RealLen.le31 hn
  have hM0 : 0 ≤ M := le_trans (by positivity) hm
  have hn1 : (1:ℝ) ≤ n := by exact_mod_cast hpos
  have key := real_pair hpos hfg
  obtain ⟨hf, hg, hsc⟩ := key
  have hsc := scR_pair hsc
  have a : RealArgs w f n x y (doubles d) := ⟨wf, hn, by rw [rfftNeed, hf]; exact hx, hx.alloc, hy, hxy⟩
  set mid := rfftOut (Xmm F) thr f n (doubles d)
  have hcell := fun t => rfft_cell i thr hg n mid t
  refine ⟨fun t => rfftOut (Xmm F) thr g n mid t 0,
    ComputesIn.congr (RFFT.computes2 (thr := thr) a hf hz hyz) (fun t _ => (hcell t).symm), fun t ht => ?_⟩
  have hnM : (n:ℝ) * M ≤ 2 ^ 1015 := le_trans (by nlinarith [mul_nonneg (by linarith : (0:ℝ) ≤ n) hM0]) hM
  have hG1 : 3 * (n * M) ≤ (2:ℝ) ^ 1019 := pow1016_15 hnM (by norm_num) (by positivity)
  have h1 := ((dblFlt hF).apReal i).rfftOut_ap (thr := thr) hn f hG1 (scaled_ok hpos h31 f.mode hm)
    (v := Spec.ofReal fun j => val (d j)) (v' := doubles d) (fun t ht => in_real hF hm (hd t (by
      rw [rfftNeed, hf] at ht; exact ht)))
  have hsf := ApLaws.scR_range n f.mode hpos h31
  have hf0 : 0 ≤ scR n f.mode := le_trans (by positivity) hsf.1
  have e2 : scR n g.mode * (3 * (n * (scR n f.mode * M))) = 3 * M := by linear_combination 3 * M * hsc
  have hG2 : 3 * (n * (3 * (n * (scR n f.mode * M)))) ≤ (2:ℝ) ^ 1019 := by
    have : 3 * (n * (3 * (n * (scR n f.mode * M)))) = 9 * (n * (n * (scR n f.mode * M))) := by ring
    rw [this]
    refine pow1016_15 (le_trans ?_ hM) (by norm_num) (by positivity)
    have : scR n f.mode * M ≤ M := by nlinarith [hsf.2]
    gcongr
  have h := ((dblFlt hF).apReal i).rfftOut_ap (thr := thr) hn g hG2
    (by
      rw [e2]
      have h3 := small_ok hm
      refine le_trans h3 ?_
      have : (1:ℝ) / 2 ^ 31 ≤ 3 := by norm_num
      exact mul_le_mul_of_nonneg_right this hM0)
    (fun t ht => h1 t (by rw [rfftNeed, hg, if_pos rfl] at ht; rcases hn with rfl | ⟨m, rfl, h, -⟩ <;> [omega; (have := h.two; omega)])) t ht
  have e3 : 3 * ((n:ℝ) * (scR n g.mode * (3 * (n * (scR n f.mode * M))))) = 9 * (n * M) := by rw [e2]; ring
  rw [e3] at h
  have hw := half_weight h31
  have := out_err hF h (pow1016_15 hnM (by norm_num) (by positivity)) (by omega)
  have hcv := (dblFlt hF).cv_real (rfftOut (Xmm F) thr g n mid t 0)
  rw [rfftOut_twice thr hn _ (real_pair hpos hfg) ht, ← hcell t,
    show cval val (doubles (fun t => rfftOut (Xmm F) thr g n mid t 0) t) = (val (rfftOut (Xmm F) thr g n mid t 0) : ℂ) from hcv,
    Spec.ofReal, ← Complex.ofReal_sub, Complex.norm_real, Real.norm_eq_abs] at this
  refine ⟨this.1.1, le_trans this.2 (le_of_eq ?_)⟩
  push_cast
  ring

/-- C47: a cosine transform followed by its inverse, in either order. -/
theorem C47_dct_roundtrip (hF : Binary64 F val fin) (i : Target) (thr : Thr) (hn : RealLen n) (h30 : n < 2 ^ 30) (wf : w.WF)
    {d : ℕ → F} (hx : Arr w.heap x n (doubles d)) (hm : 1 / 2 ^ 970 ≤ M) (hM : n * (n * M) ≤ 2 ^ 1014)
    (hd : ∀ t < n, fin (d t) ∧ |val (d t)| ≤ M) (f g : DctEntry)
    (hfg : (f, g) ∈ [(DctEntry.fwd, DctEntry.inv), (.fwd, .inv0), (.fwdn, .inv), (.fwdn, .inv0), (.fwd0, .invn)] ∨
      (g, f) ∈ [(DctEntry.fwd, DctEntry.inv), (.fwd, .inv0), (.fwdn, .inv), (.fwdn, .inv0), (.fwd0, .invn)]) :
    letI := i.arith F
    ∃ out : ℕ → F, Computes (realDCT (Xmm F) thr) n [(f, x), (g, x)] w x n (doubles out) ∧
      ∀ t < n, fin (out t) ∧ |val (out t) - val (d t)| ≤ 2 * (errWeight (n / 2) + 117) / 2 ^ 52 * (81 / 4 * (n * M)) := by
  letI := i.arith F
  have hpos := hn.pos
  have h31 := RealLen.le31 hn
  have hM0 : 0 ≤ M := le_trans (by positivity) hm
  have hn1 : (1:ℝ) ≤ n := by exact_mod_cast hpos
  have hsc : scR n f.mode * scR n g.mode * n = 1 := by
    rcases hfg with h | h
    · obtain ⟨c, d, -, -, hc, hd, h⟩ := dct_pair hpos h
      exact scR_pair (by rw [hc, hd]; exact_mod_cast h)
    · obtain ⟨c, d, -, -, hc, hd, h⟩ := dct_pair hpos h
      exact scR_pair (by rw [hc, hd, mul_comm (d : ℂ)]; exact_mod_cast h)
  have htw : ∀ t < n, dctOut ℂ thr g n (dctOut ℂ thr f n (Spec.ofReal fun j => val (d j))) t = Spec.ofReal (fun j => val (d j)) t := by
    intro t ht
    rcases hfg with h | h
    · exact (dctOut_twice thr hn h30 _ (dct_pair hpos h) ht).1
    · exact (dctOut_twice thr hn h30 _ (dct_pair hpos h) ht).2
  set mid := dctOut (Xmm F) thr f n (doubles d)
  have hcell := fun t => (dct_cell (F := F) i thr g n (v := mid) (t := t) (dct_cell (F := F) i thr f n (v := doubles d) ⟨_, rfl⟩).2).1
  refine ⟨fun t => dctOut (Xmm F) thr g n mid t 0,
    ComputesIn.toComputes (DCT.computes (thr := thr) wf hn h30 hx [f, g]) (Set.empty_subset _) (fun t _ => (hcell t).symm), fun t ht => ?_⟩
  have p14 : ∀ {B c : ℝ}, B ≤ 2 ^ 1014 → c ≤ 32 → 0 ≤ B → c * B ≤ (2:ℝ) ^ 1019 := by
    intro B c h hc hB
    have e : (2:ℝ) ^ 1019 = 2 ^ 1014 * 32 := by rw [show 1019 = 1014 + 5 from rfl, pow_add]; norm_num
    rw [e]
    clear e
    generalize (2:ℝ) ^ 1014 = A at *
    nlinarith
  have hnM : (n:ℝ) * M ≤ 2 ^ 1014 := le_trans (by nlinarith [mul_nonneg (by linarith : (0:ℝ) ≤ n) hM0]) hM
  have h1 := ((dblFlt hF).apReal i).dctOut_ap (thr := thr) hn h30 f (p14 hnM (by norm_num) (by positivity)) (scaled_ok hpos h31 f.mode hm)
    (v := Spec.ofReal fun j => val (d j)) (v' := doubles d) (fun t ht => in_real hF hm (hd t ht))
  have hsf := ApLaws.scR_range n f.mode hpos h31
  have hf0 : 0 ≤ scR n f.mode := le_trans (by positivity) hsf.1
  have e2 : scR n g.mode * (9 / 2 * (n * (scR n f.mode * M))) = 9 / 2 * M := by linear_combination 9 / 2 * M * hsc
  have hG2 : 9 / 2 * (n * (9 / 2 * (n * (scR n f.mode * M)))) ≤ (2:ℝ) ^ 1019 := by
    have : 9 / 2 * (n * (9 / 2 * (n * (scR n f.mode * M)))) = 81 / 4 * (n * (n * (scR n f.mode * M))) := by ring
    rw [this]
    refine p14 (le_trans ?_ hM) (by norm_num) (by positivity)
    have : scR n f.mode * M ≤ M := by nlinarith [hsf.2]
    gcongr
  have h := ((dblFlt hF).apReal i).dctOut_ap (thr := thr) hn h30 g hG2
    (by
      rw [e2]
      refine le_trans (small_ok hm) ?_
      have : (1:ℝ) / 2 ^ 31 ≤ 9 / 2 := by norm_num
      exact mul_le_mul_of_nonneg_right this hM0) h1 t ht
  have e3 : 9 / 2 * ((n:ℝ) * (scR n g.mode * (9 / 2 * (n * (scR n f.mode * M))))) = 81 / 4 * (n * M) := by rw [e2]; ring
  rw [e3] at h
  have hw := half_weight h31
  have := out_err hF h (p14 hnM (by norm_num) (by positivity)) (by omega)
  have hcv := (dblFlt hF).cv_real (dctOut (Xmm F) thr g n mid t 0)
  rw [htw t ht, ← hcell t,
    show cval val (doubles (fun t => dctOut (Xmm F) thr g n mid t 0) t) = (val (dctOut (Xmm F) thr g n mid t 0) : ℂ) from hcv,
    Spec.ofReal, ← Complex.ofReal_sub, Complex.norm_real, Real.norm_eq_abs] at this
  refine ⟨this.1.1, le_trans this.2 (le_of_eq ?_)⟩
  push_cast
  ring

end

/-! ### the hypotheses are met -/

theorem big1016 {c : ℝ} (h : c ≤ 2 ^ 60) : c ≤ 2 ^ 1014 := le_trans h (pow_le_pow_right₀ (by norm_num) (by norm_num))

/-- even lengths up to 1000, SSE2: the error of `fwdn` is below `10⁻⁹` for inputs of magnitude 1 -/
example (thr : Thr) {m : ℕ} (h2 : 2 ≤ m) (hm : m ≤ 500) (d : ℕ → R53) (hd : ∀ t < 2 * m, |(d t).val| ≤ 1) :
    letI := (⟨true, false, false, false, false⟩ : Target).arith R53
    ∃ out : ℕ → Xmm R53, Computes (realFFT (Xmm R53) thr) (2 * m) [(.fwdn, Ptr.base 1, Ptr.base 2)] (twoArrays (2 * m) (doubles d))
        (Ptr.base 2) (2 * m) out ∧
      ∀ t < 2 * m, ‖cval R53.val (out t) - Entry.exact (2 * m) .fwdn (Spec.ofReal fun j => (d j).val) t‖ ≤ 1 / 10 ^ 9 := by
  have hm' : (m:ℝ) ≤ 500 := by exact_mod_cast hm
  have h2' : (2:ℝ) ≤ m := by exact_mod_cast h2
  obtain ⟨out, h, hb⟩ := @C47_real_forward R53 _ _ _ _ (2 * m) 1 _ (Ptr.base 1) (Ptr.base 2) rounded_laws ⟨true, false, false, false, false⟩ thr
    (realLen_of_le h2 (by omega)) (twoArrays_ok (2 * m) (doubles d)).wf d (twoArrays_ok (2 * m) (doubles d)).arr
    (fun i hi => by simp only [twoArrays, Ptr.base, Ptr.loc_add, Nat.zero_add, hi]; simp) (Sep.of_buf (by simp [Ptr.base]) _ _)
    (div_le_one_of_le₀ (one_le_pow₀ (by norm_num)) (by positivity))
    (le_trans (big1016 (by push_cast; linarith)) (pow_le_pow_right₀ (by norm_num) (by norm_num)))
    (fun t ht => ⟨trivial, hd t ht⟩) .fwdn (by simp)
  refine ⟨out, h, fun t ht => le_trans (hb t ht).2 ?_⟩
  have hw : (errWeight (2 * m / 2) : ℝ) ≤ 35000 := by exact_mod_cast le_trans (errWeight_le _) (by omega)
  have hf : ((2 * m : ℕ) : ℝ) * (Entry.factor (2 * m) .fwdn * 1) = 1 := by
    show ((2 * m : ℕ) : ℝ) * (1 / ((2 * m : ℕ) : ℝ) * 1) = 1
    push_cast
    field_simp
  rw [hf]
  calc _ ≤ ((35000:ℝ) + 84) / 2 ^ 52 * (3 * 1) := by gcongr
    _ ≤ _ := by norm_num

/-- an inverse transform of a non-zero conjugate symmetric vector -/
example (thr : Thr) : letI := (⟨true, true, false, false, false⟩ : Target).arith R53
    ∃ out : ℕ → R53, ComputesIn (realFFT (Xmm R53) thr) 6 [(.inv, Ptr.base 1, Ptr.base 2)]
      (twoArrays 6 fun t => if t = 0 then ![⟨1⟩, ⟨0⟩] else ![⟨0⟩, ⟨0⟩]) (Region (Ptr.base 1) 6) (Ptr.base 2) 6 (doubles out) ∧
      ∀ t < 6, True ∧ ‖((out t).val : ℂ) - Entry.exact 6 .inv (fun k => if k = 0 then 1 else 0) t‖ ≤
        (errWeight (6 / 2) + 84) / 2 ^ 52 * (3 * ((6 : ℕ) * (Entry.factor 6 .inv * 1))) := by
  have ok := twoArrays_ok 6 (fun t => if t = 0 then ![(⟨1⟩ : R53), ⟨0⟩] else ![⟨0⟩, ⟨0⟩])
  have hcv : ∀ t, cval R53.val (if t = 0 then ![(⟨1⟩ : R53), ⟨0⟩] else ![⟨0⟩, ⟨0⟩]) = (if t = 0 then 1 else 0 : ℂ) := by
    intro t
    split <;> (apply Complex.ext <;> simp [cval])
  exact @C47_real_inverse R53 _ _ _ _ 6 1 _ (Ptr.base 1) (Ptr.base 2) rounded_laws ⟨true, true, false, false, false⟩ thr
    (realLen_of_le (m := 3) (by omega) (by omega)) ok.wf _ (fun i hi => ok.arr i (by omega)) ok.arr.alloc
    (fun i hi => by simp only [twoArrays, Ptr.base, Ptr.loc_add, Nat.zero_add, hi]; simp) (Sep.of_buf (by simp [Ptr.base]) _ _)
    (div_le_one_of_le₀ (one_le_pow₀ (by norm_num)) (by positivity))
    (le_trans (big1016 (by norm_num)) (pow_le_pow_right₀ (by norm_num) (by norm_num)))
    (fun t _ => ⟨⟨trivial, trivial⟩, by rw [hcv]; split <;> simp⟩) (X := fun k => if k = 0 then 1 else 0)
    (by intro k hk; interval_cases k <;> simp) (fun t _ => (hcv t).symm) .inv (by simp)

/-- the cosine transform of length 1000 and back -/
example (thr : Thr) (d : ℕ → R53) (hd : ∀ t < 1000, |(d t).val| ≤ 1) :
    letI := (⟨false, false, false, false, false⟩ : Target).arith R53
    ∃ out : ℕ → R53, Computes (realDCT (Xmm R53) thr) 1000 [(.fwd, Ptr.base 1), (.inv, Ptr.base 1)] (oneArray 1000 (doubles d))
        (Ptr.base 1) 1000 (doubles out) ∧ ∀ t < 1000, |(out t).val - (d t).val| ≤ 1 / 10 ^ 6 := by
  obtain ⟨out, h, hb⟩ := @C47_dct_roundtrip R53 _ _ _ _ 1000 1 _ (Ptr.base 1) rounded_laws ⟨false, false, false, false, false⟩ thr
    (realLen_of_le (m := 500) (by omega) (by omega)) (by omega) (oneArray_ok 1000 (doubles d)).wf d (oneArray_ok 1000 (doubles d)).arr
    (div_le_one_of_le₀ (one_le_pow₀ (by norm_num)) (by positivity)) (big1016 (by norm_num))
    (fun t ht => ⟨trivial, hd t ht⟩) .fwd .inv (by simp)
  refine ⟨out, h, fun t ht => le_trans (hb t ht).2 ?_⟩
  have hw : (errWeight (1000 / 2) : ℝ) ≤ 35000 := by exact_mod_cast le_trans (errWeight_le _) (by omega)
  calc _ ≤ 2 * ((35000:ℝ) + 117) / 2 ^ 52 * (81 / 4 * ((1000 : ℕ) * 1)) := by gcongr
    _ ≤ _ := by norm_num

end OTFFT.Props
