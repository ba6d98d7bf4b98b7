/-
C49: from the factory to the result.
-/
import Verif.Spec.Public
import Verif.Proof.Public
import Verif.Props.Factory
import Verif.Props.Memory
import Verif.Props.Simd
import Verif.Props.AccuracyBlue

namespace OTFFT.Props
open OTFFT Spec

section
variable {C : Type} {b : Build} {c : Cpu} {t : OptType}

/-- C49: on a machine where the request cannot be met, the program sees `std::domain_error` and nothing else happens. -/
theorem C49_unavailable (hp : probeOk c) (h : ¬ available b c t) (k : Family) (X : Isa → Cls C) (n : ℤ)
    (ops : ∀ i, List (Op C (X i).Call)) : publicLife b c k X n t ops = .ret .domainError := by
  have e := (C27_create_throws_iff b c hp k n t).1.2 fun i h1 h2 h3 => h ⟨i, h1, h2, h3⟩
  unfold publicLife
  rw [e]

/-- a detected back end of a sane machine runs -/
theorem sane_runs (hs : sane c) {i : Isa} (hd : detected c i) : canRun c i := by
  obtain ⟨hp, hx⟩ := hs
  cases i with
  | sse2 => exact hd.2
  | avx => simp only [detected] at hd; simp only [canRun, osYmm]; tauto
  | avx2 =>
    simp only [detected] at hd
    simp only [canRun, osYmm]
    have := hp (by omega)
    tauto

/-- on a sane machine an available request leads to the life of an object on the heap -/
theorem public_cases (hs : sane c) (ha : available b c t) (k : Family) (X : Isa → Cls C) (n : ℤ)
    (ops : ∀ i, List (Op C (X i).Call)) : ∃ i, builtIn b i ∧ detected c i ∧ requested t i ∧
      publicLife b c k X n t ops = ((X i).boxed.lifetime n (ops i)).bind fun ok => .ret (.ended ok) := by
  obtain ⟨hthrow, hill⟩ := C27_create_throws_iff b c hs.1 k n t
  cases hc : create b c k n t with
  | illegalInstruction => exact absurd hc hill
  | domainError => obtain ⟨i, h1, h2, h3⟩ := ha; exact absurd h3 (hthrow.1 hc i h1 h2)
  | ok o =>
    obtain ⟨_, _, h1, h2, h3, _⟩ := C27_create_sound b c hs.1 k n t o hc
    obtain ⟨live', h, _⟩ := C29_delete_ok b c k n t o hc (fun _ => some o) 0 rfl
    have hd : ∃ d, deleterOf b c = .ok d := by
      unfold deleteObj at h
      cases hd : deleterOf b c with
      | ok d => exact ⟨d, rfl⟩
      | illegalInstruction => rw [hd] at h; cases h
      | domainError => rw [hd] at h; cases h
    obtain ⟨d, hd⟩ := hd
    exact ⟨o.isa, h1, h2, h3, publicLife_eq hc hd (sane_runs hs h2) (sane_runs hs (C29_deleter_detected b c hs.1 d hd).2)⟩

/-- what a class computes, its objects on the heap compute -/
theorem public_computes (hs : sane c) (ha : available b c t) (k : Family) {X : Isa → Cls C} {n : ℕ}
    {cs : ∀ i, List (X i).Call} {w : World C} {D : Set Loc} {out : Ptr} {m : ℕ} {P : (ℕ → C) → Prop} (hw : w.WF)
    (ho : Alloc w.heap out m) (h : ∀ i (w' : World C), w'.WF → w'.heap = w.heap →
      ∃ v, P v ∧ ComputesIn (X i) n (cs i) w' D out m v) : PublicComputes b c k X n t cs w D out m P := by
  obtain ⟨i, _, _, _, e⟩ := public_cases hs ha k X n fun i => (cs i).map .call
  unfold PublicComputes
  rw [e]
  constructor
  · refine Act.wp_seq (P := fun ok w' => w'.live = w.live ∧
      ((ok = true ∧ ∃ v, P v ∧ Arr w'.heap out m v ∧ ∀ l, l ∉ Region out m ∪ D → w'.heap l = w.heap l) ∨
        (ok = false ∧ w'.heap = w.heap))) ?_ ?_
    · refine Cls.boxed_wp ⟨rfl, .inr ⟨rfl, rfl⟩⟩ fun bk h0 hb => ?_
      have eh := World.alloc_zero hw hb
      obtain ⟨v, hv, hc, _⟩ := h i _ (hw.alloc_zero h0 hb) eh
      refine Act.wp_mono hc ?_
      rintro ok w' ⟨hl, h1, h2⟩
      have el : (w'.free bk).live = w.live := by
        show w'.live \ {bk} = _
        rw [hl]
        show insert bk w.live \ {bk} = _
        ext x
        simp only [Set.mem_diff, Set.mem_insert_iff, Set.mem_singleton_iff]
        constructor
        · rintro ⟨h | h, h'⟩
          · exact absurd h h'
          · exact h
        · exact fun h => ⟨.inr h, fun h' => hb (h' ▸ h)⟩
      refine ⟨by rw [hl]; exact .inl rfl, el, ?_⟩
      have dead : ∀ l : Loc, l.1 = bk → w.heap l = none := fun l h => hw.dead l (h ▸ hb)
      cases ok with
      | true =>
        obtain ⟨h1, hf⟩ := h1 rfl
        refine .inl ⟨rfl, v, hv, fun j hj => ?_, fun l hl => ?_⟩
        · show (if _ then _ else _) = _
          rw [if_neg fun h => ho j hj (dead _ h)]
          exact h1 j hj
        · show (if _ then _ else _) = _
          split
          · rename_i h; exact (dead l h).symm
          · rw [hf l hl, eh]
      | false =>
        refine .inr ⟨rfl, funext fun l => ?_⟩
        show (if _ then _ else _) = _
        split
        · rename_i h; exact (dead l h).symm
        · rw [h2 rfl, eh]
    · rintro ok w' ⟨hl, ⟨rfl, h⟩ | ⟨rfl, h⟩⟩
      · exact ⟨hl, .inl ⟨rfl, h⟩⟩
      · exact ⟨hl, .inr ⟨rfl, h⟩⟩
  · obtain ⟨v, _, _, hn⟩ := h i w hw rfl
    exact Act.NoFail_seq (Cls.boxed_noFail hn) fun ok h => by rw [h]; rfl

theorem _root_.OTFFT.Computes.toIn {X : Cls C} {n : ℕ} {cs : List X.Call} {w : World C} {out : Ptr} {m : ℕ} {v : ℕ → C}
    (h : Computes X n cs w out m v) : ComputesIn X n cs w ∅ out m v := by
  refine ⟨Act.wp_mono h.1 ?_, h.2⟩
  rintro ok w' ⟨h1, h2, h3⟩
  exact ⟨h1, fun e => ⟨(h2 e).1, fun l hl => (h2 e).2 l fun h' => hl (.inl h')⟩, h3⟩

theorem Arr.alloc' {h : Heap C} {p : Ptr} {n : ℕ} {v : ℕ → C} (a : Arr h p n v) : Alloc h p n := fun i hi => by
  rw [a i hi]; exact Option.some_ne_none _

end

/-! ### Values -/

section
variable {b : Build} {c : Cpu} {t : OptType}

/-- C49: in exact arithmetic the smart pointer from `createComplexFFT` computes the discrete Fourier transform, whichever
of the available instruction sets was asked for, detected and compiled in, and whatever code the compiler generated
for it. -/
theorem C49_dft (hs : sane c) (ha : available b c t) (T : Flags) (thr : Thr) {n : ℕ} (hn : ValidLen n) {w : World ℂ} {x : Ptr}
    {v : ℕ → ℂ} (hx : UserArray w x n v) :
    PublicComputes b c .complex (fun i => letI := ((T i).xmm ℝ).arith cpx; complexFFT ℂ thr) n t (fun _ => [(.fwd0, x)]) w ∅
      x n (fun out => out = Spec.dft n v) :=
  public_computes hs ha _ hx.wf (Arr.alloc' hx.arr) fun i w' hw' eh =>
    ⟨_, rfl, (C43_dft (T i) thr hn ⟨hw', eh ▸ hx.arr⟩).toIn⟩

variable {F : Type} [FArith F] [Inhabited F] {val : F → ℝ} {fin : F → Prop} {n : ℕ} {w : World (Xmm F)} {x y : Ptr}
  {v : ℕ → Xmm F} {M : ℝ}

/-- C49: in floating point, whatever instruction set is chosen and whatever code was generated for it, the result is
accurate (C46). -/
theorem C49_complex (hs : sane c) (ha : available b c t) (hF : Binary64 F val fin) (T : Flags) (thr : Thr) (hn : ValidLen n)
    (hx : UserArray w x n v) (hm : 1 / 2 ^ 970 ≤ M) (hM : n * M ≤ 2 ^ 1019)
    (hv : ∀ t < n, cfin fin (v t) ∧ ‖cval val (v t)‖ ≤ M) (e : Entry) :
    PublicComputes b c .complex (fun i => letI := (T i).arith F; complexFFT (Xmm F) thr) n t (fun _ => [(e, x)]) w ∅ x n
      (fun out => ∀ t < n, cfin fin (out t) ∧ ‖cval val (out t) - e.exact n (fun j => cval val (v j)) t‖ ≤
        errWeight n / 2 ^ 52 * (e.factor n * n * M)) :=
  public_computes hs ha _ hx.wf (Arr.alloc' hx.arr) fun i w' hw' eh => by
    obtain ⟨out, h, he⟩ := C46_accuracy hF (T i) thr hn (w := w') ⟨hw', eh ▸ hx.arr⟩ hm hM hv e
    exact ⟨out, he, h.toIn⟩

/-- C49: the same for a transform followed by its inverse. -/
theorem C49_roundtrip (hs : sane c) (ha : available b c t) (hF : Binary64 F val fin) (T : Flags) (thr : Thr) (hn : ValidLen n)
    (hx : UserArray w x n v) (hm : 1 / 2 ^ 970 ≤ M) (hM : n * (n * M) ≤ 2 ^ 1019)
    (hv : ∀ t < n, cfin fin (v t) ∧ ‖cval val (v t)‖ ≤ M) (f g : Entry)
    (hfg : (f, g) ∈ [(Entry.fwd, Entry.inv), (.fwd, .inv0), (.fwdn, .inv), (.fwdn, .inv0),
      (.fwd0, .invn), (.fwdu, .invu)]) :
    PublicComputes b c .complex (fun i => letI := (T i).arith F; complexFFT (Xmm F) thr) n t (fun _ => [(f, x), (g, x)]) w ∅ x n
      (fun out => ∀ t < n, cfin fin (out t) ∧ ‖cval val (out t) - cval val (v t)‖ ≤ 2 * errWeight n / 2 ^ 52 * (n * M)) :=
  public_computes hs ha _ hx.wf (Arr.alloc' hx.arr) fun i w' hw' eh => by
    obtain ⟨out, h, he⟩ := C46_roundtrip hF (T i) thr hn (w := w') ⟨hw', eh ▸ hx.arr⟩ hm hM hv f g hfg
    exact ⟨out, he, h.toIn⟩

/-- C49: real transforms, forward (C47). -/
theorem C49_real_forward (hs : sane c) (ha : available b c t) (hF : Binary64 F val fin) (T : Flags) (thr : Thr) (hn : RealLen n)
    (wf : w.WF) {d : ℕ → F} (hx : Arr w.heap x n (doubles d)) (hy : Alloc w.heap y n) (hxy : Sep x n y n)
    (hm : 1 / 2 ^ 970 ≤ M) (hM : n * M ≤ 2 ^ 1016) (hd : ∀ t < n, fin (d t) ∧ |val (d t)| ≤ M) (e : Entry)
    (he : e ∈ [Entry.fwd, .fwd0, .fwdu, .fwdn]) :
    PublicComputes b c .real (fun i => letI := (T i).arith F; realFFT (Xmm F) thr) n t (fun _ => [(e, x, y)]) w ∅ y n
      (fun out => ∀ t < n, cfin fin (out t) ∧ ‖cval val (out t) - e.exact n (Spec.ofReal fun j => val (d j)) t‖ ≤
        (errWeight (n / 2) + 84) / 2 ^ 52 * (3 * (n * (e.factor n * M)))) :=
  public_computes hs ha _ wf hy fun i w' hw' eh => by
    obtain ⟨out, h, hr⟩ := C47_real_forward hF (T i) thr hn (w := w') hw' (eh ▸ hx) (eh ▸ hy) hxy hm hM hd e he
    exact ⟨out, hr, h.toIn⟩

/-- C49: real transforms, inverse (C47); the input array is overwritten. -/
theorem C49_real_inverse (hs : sane c) (ha : available b c t) (hF : Binary64 F val fin) (T : Flags) (thr : Thr) (hn : RealLen n)
    (wf : w.WF) (hx : Arr w.heap x (n / 2 + 1) v) (hx' : Alloc w.heap x n) (hy : Alloc w.heap y n) (hxy : Sep x n y n)
    (hm : 1 / 2 ^ 970 ≤ M) (hM : n * M ≤ 2 ^ 1016) (hv : ∀ t ≤ n / 2, cfin fin (v t) ∧ ‖cval val (v t)‖ ≤ M)
    {X : ℕ → ℂ} (hX : Spec.Hermitian n X) (hXv : ∀ t ≤ n / 2, X t = cval val (v t)) (e : Entry)
    (he : e ∈ [Entry.inv, .inv0, .invu, .invn]) :
    PublicComputes b c .real (fun i => letI := (T i).arith F; realFFT (Xmm F) thr) n t (fun _ => [(e, x, y)]) w (Region x n) y n
      (fun out => ∃ d : ℕ → F, out = doubles d ∧ ∀ t < n, fin (d t) ∧ ‖(val (d t) : ℂ) - e.exact n X t‖ ≤
        (errWeight (n / 2) + 84) / 2 ^ 52 * (3 * (n * (e.factor n * M)))) :=
  public_computes hs ha _ wf hy fun i w' hw' eh => by
    obtain ⟨out, h, hr⟩ := C47_real_inverse hF (T i) thr hn (w := w') hw' (eh ▸ hx) (eh ▸ hx') (eh ▸ hy) hxy hm hM hv hX hXv e he
    exact ⟨_, ⟨out, rfl, hr⟩, h⟩

/-- C49: discrete cosine transforms (C47). -/
theorem C49_dct (hs : sane c) (ha : available b c t) (hF : Binary64 F val fin) (T : Flags) (thr : Thr) (hn : RealLen n)
    (h30 : n < 2 ^ 30) (wf : w.WF) {d : ℕ → F} (hx : Arr w.heap x n (doubles d)) (hm : 1 / 2 ^ 970 ≤ M) (hM : n * M ≤ 2 ^ 1016)
    (hd : ∀ t < n, fin (d t) ∧ |val (d t)| ≤ M) (e : DctEntry) :
    PublicComputes b c .dct (fun i => letI := (T i).arith F; realDCT (Xmm F) thr) n t (fun _ => [(e, x)]) w ∅ x n
      (fun out => ∃ r : ℕ → F, out = doubles r ∧ ∀ t < n, fin (r t) ∧ |val (r t) - e.exact n (fun j => val (d j)) t| ≤
        (errWeight (n / 2) + 117) / 2 ^ 52 * (9 / 2 * (n * (e.factor n * M)))) :=
  public_computes hs ha _ wf (Arr.alloc' hx) fun i w' hw' eh => by
    obtain ⟨out, h, hr⟩ := C47_dct hF (T i) thr hn h30 (w := w') hw' (eh ▸ hx) hm hM hd e
    exact ⟨_, ⟨out, rfl, hr⟩, h.toIn⟩

/-- C49: Bluestein's algorithm (C48). -/
theorem C49_bluestein (hs : sane c) (ha : available b c t) (hF : Binary64 F val fin) (T : Flags) (thr : Thr) (h1 : 1 ≤ n)
    (h29 : n ≤ 2 ^ 29) (hx : UserArray w x n v) (hm : 1 / 2 ^ 970 ≤ M) (hM : n * (n * (n * M)) ≤ 2 ^ 1013)
    (hv : ∀ t < n, cfin fin (v t) ∧ ‖cval val (v t)‖ ≤ M) (e : Entry) :
    PublicComputes b c .bluestein (fun i => letI := (T i).arith F; bluesteinFFT (Xmm F) thr) n t (fun _ => [(e, x)]) w ∅ x n
      (fun out => ∀ t < n, cfin fin (out t) ∧ ‖cval val (out t) - e.exact n (fun j => cval val (v j)) t‖ ≤
        (150 * Nat.clog 2 n + 207) / 2 ^ 52 * (16 * (n * (n * (e.factor n * M))))) :=
  public_computes hs ha _ hx.wf (Arr.alloc' hx.arr) fun i w' hw' eh => by
    obtain ⟨out, h, he⟩ := C48_bluestein hF (T i) thr h1 h29 (w := w') ⟨hw', eh ▸ hx.arr⟩ hm hM hv e
    exact ⟨out, he, h.toIn⟩

end

/-! ### Histories -/

section
variable {b : Build} {c : Cpu} {t : OptType} {C : Type}

theorem validOps_heap {Call : Type} {setupOK : ℤ → Prop} {callOK : ℕ → Call → Heap C → Prop} {w w' : World C}
    (e : w'.heap = w.heap) : ∀ (ops : List (Op C Call)) (m : ℕ), ValidOps setupOK callOK w m ops → ValidOps setupOK callOK w' m ops
  | [], _, _ => trivial
  | .setup _ :: ops, _, h => ⟨h.1, validOps_heap e ops _ h.2⟩
  | .call _ :: ops, _, h => ⟨by rw [e]; exact h.1, validOps_heap e ops _ h.2⟩
  | .store _ _ :: ops, _, h => ⟨by rw [e]; exact h.1, validOps_heap e ops _ h.2⟩

theorem public_clean (hs : sane c) (ha : available b c t) (k : Family) {X : Isa → Cls C} (S : ∀ i, ClsSpec (X i))
    {setupOK : ℤ → Prop} (hS : ∀ i n, setupOK n → (S i).SetupOK n)
    {callOK : ∀ i, ℕ → (X i).Call → Heap C → Prop} {w : World C} (hw : w.WF)
    (hc : ∀ i (w' : World C), w'.WF → ∀ n c, callOK i n c w'.heap → (S i).Valid n c w'.live w'.heap) (n : ℤ)
    (ops : ∀ i, List (Op C (X i).Call)) (hn : setupOK n) (hv : ∀ i, ValidOps (S i).SetupOK (callOK i) w n.toNat (ops i))
    {nonneg : Prop} (hf : nonneg → ∀ i, ((X i).lifetime n (ops i)).NoFail (fun ok => ok = true)) :
    PublicClean b c k X n t ops nonneg w := by
  obtain ⟨i, _, _, _, e⟩ := public_cases hs ha k X n ops
  unfold PublicClean
  rw [e]
  have key : (((X i).boxed.lifetime n (ops i)).bind fun ok => Act.ret (Outcome.ended ok)).wp
      (fun r w' => (∃ ok, r = .ended ok) ∧ w'.live = w.live) w := by
    refine Act.wp_seq (P := fun _ w' => w'.live = w.live) ?_ fun ok w' h => ⟨⟨ok, rfl⟩, h⟩
    refine Cls.boxed_wp rfl fun bk h0 hb => ?_
    have hw' := hw.alloc_zero h0 hb
    have := (S i).lifetime n (ops i) (hS i n hn) (Owned.start hw')
      ((validOps_heap (World.alloc_zero hw hb) _ _ (hv i)).toSpec (S i) hw' (hc i _ hw') (ops i) n.toNat)
    refine Act.wp_mono this fun ok w' h => ?_
    have hl : w'.live = insert bk w.live := by
      have := h.1.live
      rw [this]; simp [World.alloc]
    refine ⟨by rw [hl]; exact .inl rfl, ?_⟩
    show w'.live \ {bk} = _
    rw [hl]
    ext x
    simp only [Set.mem_diff, Set.mem_insert_iff, Set.mem_singleton_iff]
    constructor
    · rintro ⟨h | h, h'⟩
      · exact absurd h h'
      · exact h
    · exact fun h => ⟨.inr h, fun h' => hb (h' ▸ h)⟩
  refine ⟨Act.wp_noUB key, fun r w' hr => Act.wp_runs key hr, fun h => ?_⟩
  exact Act.NoFail_seq (Cls.boxed_noFail (hf h i)) fun ok h => by rw [h]; rfl

variable {F : Type} [DArith F] (A : Isa → CArith F C) [Inhabited C] {w : World C} (thr : Thr)

/-- C49: every valid client program around one smart pointer from `createComplexFFT` is clean. -/
theorem C49_life_complex (hs : sane c) (ha : available b c t) (hw : w.WF) (n : ℤ) (hn : intLen n) (ops : List (Op C (Entry × Ptr)))
    (hv : ValidOps intLen complexOK w n.toNat ops) :
    PublicClean b c .complex (fun i => letI := A i; complexFFT C thr) n t (fun _ => ops) (0 ≤ n ∧ ∀ op ∈ ops, op.lenNat) w :=
  public_clean hs ha _ (fun i => letI := A i; complexFFTSpec C thr) (fun _ _ h => h) hw
    (fun i w' hw' => letI := A i; complexOK.valid hw') n _ hn (fun _ => hv)
    (fun h i => letI := A i; FFT.lifetime_noFail n h.1 ops h.2)

/-- C49: the same for `createRealFFT`. -/
theorem C49_life_real (hs : sane c) (ha : available b c t) (hw : w.WF) (n : ℤ) (hn : intLen n)
    (ops : List (Op C (Entry × Ptr × Ptr))) (hv : ValidOps intLen realOK w n.toNat ops) :
    PublicClean b c .real (fun i => letI := A i; realFFT C thr) n t (fun _ => ops) (0 ≤ n ∧ ∀ op ∈ ops, op.lenNat) w :=
  public_clean hs ha _ (fun i => letI := A i; realFFTSpec C thr) (fun _ _ h => h) hw
    (fun i w' hw' => letI := A i; realOK.valid hw') n _ hn (fun _ => hv)
    (fun h i => letI := A i; RFFT.lifetime_noFail n h.1 ops h.2)

/-- C49: the same for `createDCT`. -/
theorem C49_life_dct (hs : sane c) (ha : available b c t) (hw : w.WF) (n : ℤ) (hn : dctLen n)
    (ops : List (Op C (DctEntry × Ptr))) (hv : ValidOps dctLen dctOK w n.toNat ops) :
    PublicClean b c .dct (fun i => letI := A i; realDCT C thr) n t (fun _ => ops) (0 ≤ n ∧ ∀ op ∈ ops, op.lenNat) w :=
  public_clean hs ha _ (fun i => letI := A i; realDCTSpec C thr) (fun _ _ h => h) hw
    (fun i w' hw' => letI := A i; dctOK.valid hw') n _ hn (fun _ => hv)
    (fun h i => letI := A i; DCT.lifetime_noFail n h.1 ops h.2)

/-- C49: the same for `createBluesteinFFT`. -/
theorem C49_life_bluestein (hs : sane c) (ha : available b c t) (hw : w.WF) (n : ℤ) (hn : blueLen n)
    (ops : List (Op C (Entry × Ptr))) (hv : ValidOps blueLen blueOK w n.toNat ops) :
    PublicClean b c .bluestein (fun i => letI := A i; bluesteinFFT C thr) n t (fun _ => ops) (0 ≤ n ∧ ∀ op ∈ ops, op.lenNat) w :=
  public_clean hs ha _ (fun i => letI := A i; bluesteinSpec C thr) (fun _ _ h => h) hw
    (fun i w' hw' => letI := A i; blueOK.valid hw') n _ hn (fun _ => hv)
    (fun h i => letI := A i; Bluestein.lifetime_noFail n h.1 ops h.2)

end

/-! ### The hypotheses are met -/

/-- an ordinary desktop processor -/
def desktop : Cpu := ⟨0x16, 0, 0x1C001201#32, 0x06000000#32, 0x20#32, 7⟩

theorem desktop_sane : sane desktop := ⟨fun _ => by decide, fun _ => by decide⟩

theorem desktop_available (t : OptType) : available ⟨true, true, true⟩ desktop t := by
  cases t with
  | sse2 => exact ⟨.sse2, rfl, ⟨by decide, by decide⟩, by simp [requested]⟩
  | avx => exact ⟨.avx, rfl, ⟨by decide, by decide, by decide, by decide, by decide, by decide⟩, by simp [requested]⟩
  | avx2 => exact ⟨.avx2, rfl, ⟨by decide, by decide, by decide, by decide, by decide⟩, by simp [requested]⟩
  | auto => exact ⟨.avx2, rfl, ⟨by decide, by decide, by decide, by decide, by decide⟩, by simp [requested]⟩

/-- an SSE2-only build cannot serve a request for AVX -/
example : ¬ available ⟨true, false, false⟩ desktop .avx := by
  rintro ⟨i, h1, _, h3⟩
  cases i
  · simp [requested] at h3
  · cases h1
  · cases h1

/-- length 12 on the desktop, all requests -/
example (T : Flags) (thr : Thr) (t : OptType) (v : ℕ → ℂ) :
    PublicComputes ⟨true, true, true⟩ desktop .complex (fun i => letI := ((T i).xmm ℝ).arith cpx; complexFFT ℂ thr) 12 t
      (fun _ => [(.fwd0, Ptr.base 1)]) (oneArray 12 v) ∅ (Ptr.base 1) 12 (fun out => out = Spec.dft 12 v) :=
  C49_dft desktop_sane (desktop_available t) T thr (validLen_of_le (by omega) (by omega)) (oneArray_ok 12 v)

/-- a history on the desktop -/
example {F C : Type} [DArith F] (A : Isa → CArith F C) [Inhabited C] (thr : Thr) (t : OptType) (v : ℕ → C) :
    PublicClean ⟨true, true, true⟩ desktop .complex (fun i => letI := A i; complexFFT C thr) 12 t (fun _ => sampleOps)
      (0 ≤ (12:ℤ) ∧ ∀ op ∈ sampleOps (C := C), op.lenNat) (oneArray 12 v) :=
  C49_life_complex A thr desktop_sane (desktop_available t) (oneArray_ok 12 v).wf 12 ⟨by omega, by omega⟩ sampleOps (sample_valid v)

end OTFFT.Props
