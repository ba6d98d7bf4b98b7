/-
C42: `FFT0` and `DCT0`, the classes of which the caller supplies the work areas.
-/
import Verif.Proof.Raw
import Verif.Props.Memory
import Verif.Props.DCT

namespace OTFFT

variable {F C : Type} [DArith F] [CArith F C] [Inhabited C]

/-- any sequence of `FFT0` transforms of one array, each with its own work area, any arithmetic -/
theorem FFT0.computes {thr : Thr} {w : World C} {n : Nat} {x : Ptr} {v : Nat → C} (wf : w.WF) (hn : ValidLen n)
    (hx : Arr w.heap x n v) (cs : List (Entry × Ptr)) (hc : ∀ c ∈ cs, Alloc w.heap c.2 n ∧ Sep x n c.2 n) :
    ComputesIn (rawFFT C thr) n (cs.map fun c => (c.1, x, c.2)) w {l | ∃ c ∈ cs, l ∈ Region c.2 n} x n
      ((cs.map Prod.fst).foldl (fun u e => fftOut C thr e.isInv e.mode n u) v) := by
  have h2 := hn.two
  have hl := wf.buf_live (by omega) hx.alloc
  have hyl : ∀ c ∈ cs, c.2.buf ∈ w.live := fun c hm => wf.buf_live (by omega) (hc c hm).1
  refine (rawFFTSpec C thr).computesIn
    (fun i h => Arr h x n (((cs.map Prod.fst).take i).foldl (fun u e => fftOut C thr e.isInv e.mode n u) v) ∧
      KeepsInit w.live w.heap h ∧
      ∀ l : Loc, l.1 ∈ w.live → l ∉ Region x n ∪ {l | ∃ c ∈ cs, l ∈ Region c.2 n} → h l = w.heap l)
    hn.intLen wf ⟨by simpa using hx, .refl _ _, fun _ _ _ => rfl⟩ ?_ ?_ ?_ (FFT0.lifetime_noFail _ (by omega) _ (lenNat_calls _))
  · rintro i h h' s ⟨a, k, b⟩
    exact ⟨s.arr hl a, k.trans s.keeps, fun l h1 h2 => (s l h1).trans (b l h1 h2)⟩
  · rintro i c hc' o w' ow hr ⟨a, k, b⟩
    have hc'' : (cs.map fun c => ((c.1, x, c.2) : Entry × Ptr × Ptr))[i]? = some c := hc'
    rw [List.getElem?_map] at hc''
    obtain ⟨c, he, rfl⟩ := Option.map_eq_some_iff.1 hc''
    have hm : c ∈ cs := List.mem_of_getElem? he
    obtain ⟨h', g, a', f, r⟩ := FFT0.call_foot (e := c.1) hn ow hr a ((hc c hm).1.keeps k (hyl c hm)) (hc c hm).2
      (fun h => ow.disj _ h hl) (fun h => ow.disj _ h (hyl c hm))
    refine Act.wp_exec g ⟨ow.ran g, r, ?_, k.trans (g.keeps _), fun l h1 h2 => ?_⟩
    · rw [List.take_succ, List.getElem?_map, he, Option.map, Option.toList, List.foldl_append]
      exact a'
    · exact (f l fun h => h2 (h.imp id fun h => ⟨c, hm, h⟩)).trans (b l h1 h2)
  · rintro h ⟨a, k, b⟩
    have hlen : (cs.map fun c => ((c.1, x, c.2) : Entry × Ptr × Ptr)).length = (cs.map Prod.fst).length := by simp
    have a : Arr h x n (((cs.map Prod.fst).take ((cs.map fun c => ((c.1, x, c.2) : Entry × Ptr × Ptr)).length)).foldl
      (fun u e => fftOut C thr e.isInv e.mode n u) v) := a
    rw [hlen, List.take_length] at a
    exact ⟨a, b⟩

/-- any sequence of `DCT0` transforms of one array, each with its own work areas, any arithmetic -/
theorem DCT0.computes {thr : Thr} {w : World C} {n : Nat} {x : Ptr} {v : Nat → C} (wf : w.WF) (hn : RealLen n) (h30 : n < 2 ^ 30)
    (hx : Arr w.heap x n v) (cs : List (DctEntry × Ptr × Ptr))
    (hc : ∀ c ∈ cs, Alloc w.heap c.2.1 n ∧ Alloc w.heap c.2.2 n ∧ Sep x n c.2.1 n ∧ Sep x n c.2.2 n ∧ Sep c.2.1 n c.2.2 n) :
    ComputesIn (rawDCT C thr) n (cs.map fun c => (c.1, x, c.2)) w
      {l | ∃ c ∈ cs, l ∈ Region c.2.1 n ∪ Region c.2.2 n} x n
      ((cs.map Prod.fst).foldl (fun u e => dctOut C thr e n u) v) := by
  have hl := wf.buf_live hn.pos hx.alloc
  have hyl : ∀ c ∈ cs, c.2.1.buf ∈ w.live := fun c hm => wf.buf_live hn.pos (hc c hm).1
  have hzl : ∀ c ∈ cs, c.2.2.buf ∈ w.live := fun c hm => wf.buf_live hn.pos (hc c hm).2.1
  refine (rawDCTSpec C thr).computesIn
    (fun i h => Arr h x n (((cs.map Prod.fst).take i).foldl (fun u e => dctOut C thr e n u) v) ∧
      KeepsInit w.live w.heap h ∧
      ∀ l : Loc, l.1 ∈ w.live → l ∉ Region x n ∪ {l | ∃ c ∈ cs, l ∈ Region c.2.1 n ∪ Region c.2.2 n} → h l = w.heap l)
    ⟨by omega, by omega⟩ wf ⟨by simpa using hx, .refl _ _, fun _ _ _ => rfl⟩ ?_ ?_ ?_ (DCT0.lifetime_noFail _ (by omega) _ (lenNat_calls _))
  · rintro i h h' s ⟨a, k, b⟩
    exact ⟨s.arr hl a, k.trans s.keeps, fun l h1 h2 => (s l h1).trans (b l h1 h2)⟩
  · rintro i c hc' o w' ow hr ⟨a, k, b⟩
    have hc'' : (cs.map fun c => ((c.1, x, c.2) : DctEntry × Ptr × Ptr × Ptr))[i]? = some c := hc'
    rw [List.getElem?_map] at hc''
    obtain ⟨c, he, rfl⟩ := Option.map_eq_some_iff.1 hc''
    have hm : c ∈ cs := List.mem_of_getElem? he
    obtain ⟨h', g, a', f, r⟩ := DCT0.call_foot (e := c.1) hn ow hr a ((hc c hm).1.keeps k (hyl c hm))
      ((hc c hm).2.1.keeps k (hzl c hm)) (hc c hm).2.2.1 (hc c hm).2.2.2.1 (hc c hm).2.2.2.2
      (fun h => ow.disj _ h hl) (fun h => ow.disj _ h (hyl c hm)) (fun h => ow.disj _ h (hzl c hm))
    refine Act.wp_exec g ⟨ow.ran g, r, ?_, k.trans (g.keeps _), fun l h1 h2 => ?_⟩
    · rw [List.take_succ, List.getElem?_map, he, Option.map, Option.toList, List.foldl_append]
      exact a'
    · refine (f l fun h => h2 ?_).trans (b l h1 h2)
      rcases h with (h | h) | h
      · exact Or.inl h
      · exact Or.inr ⟨c, hm, Or.inl h⟩
      · exact Or.inr ⟨c, hm, Or.inr h⟩
  · rintro h ⟨a, k, b⟩
    have hlen : (cs.map fun c => ((c.1, x, c.2) : DctEntry × Ptr × Ptr × Ptr)).length = (cs.map Prod.fst).length := by simp
    have a : Arr h x n (((cs.map Prod.fst).take ((cs.map fun c => ((c.1, x, c.2) : DctEntry × Ptr × Ptr × Ptr)).length)).foldl
      (fun u e => dctOut C thr e n u) v) := a
    rw [hlen, List.take_length] at a
    exact ⟨a, b⟩

end OTFFT

namespace OTFFT.Props
open OTFFT

section any
variable {F C : Type} [DArith F] [CArith F C] [Inhabited C] {thr : Thr} {n : ℕ} {w w0 : World C} {x : Ptr} {v : ℕ → C}

/-- C42, any arithmetic: a sequence of transforms made through `FFT0`, each with a work area of the caller (whose
contents do not matter, it may even be uninitialised), leaves in `x` exactly what the same sequence leaves when made
through `ComplexFFT`; besides `x` only the work areas change. -/
theorem C42_fft0_same (thr : Thr) (hn : ValidLen n) (hx : UserArray w x n v) (cs : List (Entry × Ptr))
    (hc : ∀ c ∈ cs, Alloc w.heap c.2 n ∧ Sep x n c.2 n) :
    ∃ r, Computes (complexFFT C thr) n (cs.map fun c => (c.1, x)) w x n r ∧
      ComputesIn (rawFFT C thr) n (cs.map fun c => (c.1, x, c.2)) w {l | ∃ c ∈ cs, l ∈ Region c.2 n} x n r := by
  refine ⟨_, ?_, FFT0.computes hx.wf hn hx.arr cs hc⟩
  have e : ∀ (es : List Entry) (v : ℕ → C), es.foldl (fun u e => fftOut C thr e.isInv e.mode n u) v = fftOuts C thr n es v := by
    intro es
    induction es with
    | nil => intro v; rfl
    | cons e es ih => intro v; exact ih _
  rw [e]
  have key : ∀ L : List (Entry × Ptr), ((cs.map Prod.fst).map fun e => ((e, x) : Entry × Ptr)) = L →
      Computes (complexFFT C thr) n L w x n (fftOuts C thr n (cs.map Prod.fst) v) := by
    rintro _ rfl
    exact ⟨FFT.calls hn hx, FFT.lifetime_noFail _ (by omega) _ (lenNat_calls _)⟩
  exact key _ (List.map_map ..)

/-- C42, any arithmetic: the same for `DCT0` and `RealDCT`. -/
theorem C42_dct0_same (thr : Thr) (hn : RealLen n) (h30 : n < 2 ^ 30) (hx : UserArray w x n v) (cs : List (DctEntry × Ptr × Ptr))
    (hc : ∀ c ∈ cs, Alloc w.heap c.2.1 n ∧ Alloc w.heap c.2.2 n ∧ Sep x n c.2.1 n ∧ Sep x n c.2.2 n ∧ Sep c.2.1 n c.2.2 n) :
    ∃ r, ComputesIn (realDCT C thr) n (cs.map fun c => (c.1, x)) w ∅ x n r ∧
      ComputesIn (rawDCT C thr) n (cs.map fun c => (c.1, x, c.2)) w
        {l | ∃ c ∈ cs, l ∈ Region c.2.1 n ∪ Region c.2.2 n} x n r := by
  refine ⟨_, ?_, DCT0.computes hx.wf hn h30 hx.arr cs hc⟩
  have key : ∀ L : List (DctEntry × Ptr), ((cs.map Prod.fst).map fun e => ((e, x) : DctEntry × Ptr)) = L →
      ComputesIn (realDCT C thr) n L w ∅ x n ((cs.map Prod.fst).foldl (fun u e => dctOut C thr e n u) v) := by
    rintro _ rfl
    exact DCT.computes hx.wf hn h30 hx.arr (cs.map Prod.fst)
  exact key _ (List.map_map ..)

theorem _root_.OTFFT.rawFFTOK.valid (hw : w.WF) (n : ℕ) (c : Entry × Ptr × Ptr) (h : rawFFTOK n c w.heap) :
    FFT0.Valid n c w.live w.heap :=
  have := h.1.two
  ⟨h.1, h.2.1, h.2.2.1, h.2.2.2, hw.live_of (by omega) h.2.1.alloc', hw.live_of (by omega) h.2.2.1⟩

theorem _root_.OTFFT.rawDCTOK.valid (hw : w.WF) (n : ℕ) (c : DctEntry × Ptr × Ptr × Ptr) (h : rawDCTOK n c w.heap) :
    DCT0.Valid n c w.live w.heap :=
  ⟨h.1, h.2.1, h.2.2.1, h.2.2.2.1, h.2.2.2.2.1, h.2.2.2.2.2.1, h.2.2.2.2.2.2,
    hw.live_of h.1.pos h.2.1.alloc', hw.live_of h.1.pos h.2.2.1, hw.live_of h.1.pos h.2.2.2.1⟩

theorem _root_.OTFFT.After.rawFFT {o : FFT0} (hw : w0.WF)
    (ha : After (rawFFT C thr) intLen rawFFTOK w0 n o w) :
    Owned w0.live o.blocks w ∧ o.Ready C thr n w.heap ∧ KeepsInit w0.live w0.heap w.heap :=
  After.spec (rawFFTSpec C thr) hw (rawFFTOK.valid hw) ha

theorem _root_.OTFFT.After.rawDCT {o : DCT0} (hw : w0.WF)
    (ha : After (rawDCT C thr) dctLen rawDCTOK w0 n o w) :
    Owned w0.live o.blocks w ∧ o.Ready C thr n w.heap ∧ KeepsInit w0.live w0.heap w.heap :=
  After.spec (rawDCTSpec C thr) hw (rawDCTOK.valid hw) ha

/-- C42: after any history an `FFT0` call writes only the two arrays it is given (no cell of the object), reads only
them and blocks of the object, and ends in the same memory under every schedule. -/
theorem C42_fft0_footprint {o : FFT0} {e : Entry} {y : Ptr} (hw : w0.WF)
    (ha : After (rawFFT C thr) intLen rawFFTOK w0 n o w) (hx : rawFFTOK n (e, x, y) w.heap)
    (hux : x.buf ∈ w0.live) (huy : y.buf ∈ w0.live) :
    Confined ((rawFFT C thr).call o (e, x, y)) w.heap
      (Region x n ∪ Region y n ∪ {l | l.1 ∈ w.live \ w0.live}) (Region x n ∪ Region y n) ∧
    ∃ h', Deterministic ((rawFFT C thr).call o (e, x, y)) w.heap h' := by
  obtain ⟨ow, hr, _⟩ := ha.rawFFT hw
  obtain ⟨h1, h2, h3, h4⟩ := hx
  obtain ⟨v, hax⟩ := h2.arr
  obtain ⟨h', g, -, -⟩ := FFT0.call_foot (e := e) h1 ow hr hax h3 h4
    (fun h => ow.disj _ h hux) (fun h => ow.disj _ h huy)
  refine ⟨g.confined ?_ fun _ h => h, h', g.deterministic⟩
  rintro l (h | h | h) hn
  · exact Or.inl h
  · exact absurd (ow.wf.dead l (h ▸ ow.wf.null)) hn
  · exact Or.inr ((ow.mem_blocks _).1 h)

/-- C42: the same for `DCT0` and its three arrays. -/
theorem C42_dct0_footprint {o : DCT0} {e : DctEntry} {y z : Ptr} (hw : w0.WF)
    (ha : After (rawDCT C thr) dctLen rawDCTOK w0 n o w) (hx : rawDCTOK n (e, x, y, z) w.heap)
    (hux : x.buf ∈ w0.live) (huy : y.buf ∈ w0.live) (huz : z.buf ∈ w0.live) :
    Confined ((rawDCT C thr).call o (e, x, y, z)) w.heap
      (Region x n ∪ Region y n ∪ Region z n ∪ {l | l.1 ∈ w.live \ w0.live}) (Region x n ∪ Region y n ∪ Region z n) ∧
    ∃ h', Deterministic ((rawDCT C thr).call o (e, x, y, z)) w.heap h' := by
  obtain ⟨ow, hr, _⟩ := ha.rawDCT hw
  obtain ⟨h1, h2, h3, h4, h5, h6, h7⟩ := hx
  obtain ⟨v, hax⟩ := h2.arr
  obtain ⟨h', g, -, -⟩ := DCT0.call_foot (e := e) h1 ow hr hax h3 h4 h5 h6 h7
    (fun h => ow.disj _ h hux) (fun h => ow.disj _ h huy) (fun h => ow.disj _ h huz)
  refine ⟨g.confined ?_ fun _ h => h, h', g.deterministic⟩
  rintro l (h | h | h) hn
  · exact Or.inl h
  · exact absurd (ow.wf.dead l (h ▸ ow.wf.null)) hn
  · exact Or.inr ((ow.mem_blocks _).1 h)

/-- C42: any valid lifetime of an `FFT0` object is free of undefined behaviour and leaks nothing. -/
theorem C42_fft0_lifetime (hw : w.WF) (n : ℤ) (hn : intLen n) (ops : List (Op C (Entry × Ptr × Ptr)))
    (hv : ValidOps intLen rawFFTOK w n.toNat ops) : CleanLifetime (rawFFT C thr) n ops w :=
  cleanLifetime (rawFFTSpec C thr) hw (rawFFTOK.valid hw) n ops hn hv (FFT0.lifetime_noFail n · ops)

theorem C42_dct0_lifetime (hw : w.WF) (n : ℤ) (hn : dctLen n) (ops : List (Op C (DctEntry × Ptr × Ptr × Ptr)))
    (hv : ValidOps dctLen rawDCTOK w n.toNat ops) : CleanLifetime (rawDCT C thr) n ops w :=
  cleanLifetime (rawDCTSpec C thr) hw (rawDCTOK.valid hw) n ops hn hv (DCT0.lifetime_noFail n · ops)

end any

variable {thr : Thr} {n : ℕ} {w : World ℂ} {x y : Ptr} {v : ℕ → ℂ}

theorem ComputesIn.mono {X : Cls ℂ} {cs : List X.Call} {D D' : Set Loc} {out : Ptr} {m : ℕ} {r r' : ℕ → ℂ}
    (h : ComputesIn X n cs w D out m r) (hD : D ⊆ D') (hr : ∀ t < m, r t = r' t) : OTFFT.ComputesIn X n cs w D' out m r' := by
  refine ⟨Act.wp_mono h.1 ?_, h.2⟩
  rintro ok w' ⟨a, b, c⟩
  exact ⟨a, fun hok => ⟨(b hok).1.congr hr, fun l hl => (b hok).2 l fun h => hl (h.imp id fun h => hD h)⟩, c⟩

/-- the arguments of an `FFT0` transform: an array with contents `v` and a work area -/
structure RawArgs (w : World ℂ) (n : ℕ) (x y : Ptr) (v : ℕ → ℂ) : Prop where
  len : ValidLen n
  arr : UserArray w x n v
  work : Alloc w.heap y n
  sep : Sep x n y n

theorem raw_one (thr : Thr) (a : RawArgs w n x y v) (e : Entry) (r : ℕ → ℂ)
    (h : ∀ t < n, fftOut ℂ thr e.isInv e.mode n v t = r t) :
    ComputesIn (rawFFT ℂ thr) n [(e, x, y)] w (Region y n) x n r :=
  ComputesIn.mono (FFT0.computes a.arr.wf a.len a.arr.arr [(e, y)] (by simpa using ⟨a.work, a.sep⟩))
    (by rintro l ⟨c, hc, hl⟩; simp only [List.mem_singleton] at hc; subst hc; exact hl) h

/-- C42: what the transforms of `FFT0` compute. -/
theorem C42_fft0_values (thr : Thr) (a : RawArgs w n x y v) :
    ComputesIn (rawFFT ℂ thr) n [(.fwd0, x, y)] w (Region y n) x n (Spec.dft n v) ∧
    ComputesIn (rawFFT ℂ thr) n [(.fwd, x, y)] w (Region y n) x n (fun k => 1 / (n : ℂ) * Spec.dft n v k) ∧
    ComputesIn (rawFFT ℂ thr) n [(.fwdn, x, y)] w (Region y n) x n (fun k => 1 / (n : ℂ) * Spec.dft n v k) ∧
    ComputesIn (rawFFT ℂ thr) n [(.fwdu, x, y)] w (Region y n) x n (fun k => ((1 / Real.sqrt n : ℝ) : ℂ) * Spec.dft n v k) ∧
    ComputesIn (rawFFT ℂ thr) n [(.inv, x, y)] w (Region y n) x n (Spec.idft n v) ∧
    ComputesIn (rawFFT ℂ thr) n [(.inv0, x, y)] w (Region y n) x n (Spec.idft n v) ∧
    ComputesIn (rawFFT ℂ thr) n [(.invn, x, y)] w (Region y n) x n (fun k => 1 / (n : ℂ) * Spec.idft n v k) ∧
    ComputesIn (rawFFT ℂ thr) n [(.invu, x, y)] w (Region y n) x n (fun k => ((1 / Real.sqrt n : ℝ) : ℂ) * Spec.idft n v k) := by
  refine ⟨raw_one thr a _ _ fun t ht => ?_, raw_one thr a _ _ fun t ht => ?_, raw_one thr a _ _ fun t ht => ?_,
    raw_one thr a _ _ fun t ht => ?_, raw_one thr a _ _ fun t ht => ?_, raw_one thr a _ _ fun t ht => ?_,
    raw_one thr a _ _ fun t ht => ?_, raw_one thr a _ _ fun t ht => ?_⟩ <;>
  (rw [fftOut_C a.len.two v ht]; simp [scC, Entry.isInv, Entry.mode, Spec.dft_eq, Spec.idft_eq])

/-- C42: what the transforms of `DCT0` compute, with work areas `y`, `z`. -/
theorem C42_dct0_values {z : Ptr} {r : ℕ → ℝ} (thr : Thr) (a : DctArgs w n x r) (hy : Alloc w.heap y n) (hz : Alloc w.heap z n)
    (hxy : Sep x n y n) (hxz : Sep x n z n) (hyz : Sep y n z n) :
    ComputesIn (rawDCT ℂ thr) n [(.fwd0, x, y, z)] w (Region y n ∪ Region z n) x n (Spec.ofReal (Spec.dct n r)) ∧
    ComputesIn (rawDCT ℂ thr) n [(.fwd, x, y, z)] w (Region y n ∪ Region z n) x n (Spec.ofReal fun k => Spec.dct n r k / n) ∧
    ComputesIn (rawDCT ℂ thr) n [(.fwdn, x, y, z)] w (Region y n ∪ Region z n) x n (Spec.ofReal fun k => Spec.dct n r k / n) ∧
    ComputesIn (rawDCT ℂ thr) n [(.inv, x, y, z)] w (Region y n ∪ Region z n) x n (Spec.ofReal (Spec.dct3 n r)) ∧
    ComputesIn (rawDCT ℂ thr) n [(.inv0, x, y, z)] w (Region y n ∪ Region z n) x n (Spec.ofReal (Spec.dct3 n r)) ∧
    ComputesIn (rawDCT ℂ thr) n [(.invn, x, y, z)] w (Region y n ∪ Region z n) x n (Spec.ofReal fun k => Spec.dct3 n r k / n) := by
  have one : ∀ (e : DctEntry) (s : ℕ → ℝ), (∀ t < n, dctOut ℂ thr e n (Spec.ofReal r) t = Spec.ofReal s t) →
      OTFFT.ComputesIn (rawDCT ℂ thr) n [(e, x, y, z)] w (Region y n ∪ Region z n) x n (Spec.ofReal s) := fun e s h =>
    ComputesIn.mono (DCT0.computes a.wf a.len a.int a.arr [(e, y, z)] (by simpa using ⟨hy, hz, hxy, hxz, hyz⟩))
      (by rintro l ⟨c, hc, hl⟩; simp only [List.mem_singleton] at hc; subst hc; exact hl) h
  refine ⟨one _ _ fun t ht => ?_, one _ _ fun t ht => ?_, one _ _ fun t ht => ?_, one _ _ fun t ht => ?_,
    one _ _ fun t ht => ?_, one _ _ fun t ht => ?_⟩ <;>
  first
    | (rw [dctOut_fwd thr rfl a.len r ht]; simp [scC, DctEntry.mode, DctEntry.real, Entry.mode, Spec.ofReal]; try ring)
    | (rw [dctOut_inv thr rfl a.len r ht]; simp [scC, DctEntry.mode, DctEntry.real, Entry.mode, Spec.ofReal]; try ring)

/-! ### The hypotheses are met -/

/-- memory with an array of length `n` in block 1 and an uninitialised work area of length `n` in each of the
blocks 2 and 3 -/
def withWork {C : Type} (n : ℕ) (v : ℕ → C) : World C where
  heap := fun l => if l.2 < n then (if l.1 = 1 then some (some (v l.2)) else if l.1 = 2 ∨ l.1 = 3 then some none else none) else none
  live := {1, 2, 3}

theorem withWork_ok {C : Type} (n : ℕ) (v : ℕ → C) : UserArray (withWork n v) (Ptr.base 1) n v ∧
    Alloc (withWork n v).heap (Ptr.base 2) n ∧ Alloc (withWork n v).heap (Ptr.base 3) n := by
  refine ⟨⟨⟨by simp [withWork], fun l hl => ?_⟩, fun i hi => by simp [withWork, Ptr.base, Ptr.loc, hi]⟩,
    fun i hi => by simp [withWork, Ptr.base, Ptr.loc, hi], fun i hi => by simp [withWork, Ptr.base, Ptr.loc, hi]⟩
  simp only [withWork, Set.mem_insert_iff, Set.mem_singleton_iff, not_or] at hl ⊢
  simp [hl]

example (thr : Thr) (v : ℕ → ℂ) : ∃ w',
    ((rawFFT ℂ thr).lifetime 60 [.call (.fwd0, Ptr.base 1, Ptr.base 2)]).Runs (withWork 60 v) true w' ∧
    Arr w'.heap (Ptr.base 1) 60 (Spec.dft 60 v) := by
  obtain ⟨h1, h2⟩ := (C42_fft0_values thr (w := withWork 60 v) (n := 60) (x := Ptr.base 1) (y := Ptr.base 2)
    ⟨validLen_of_le (by omega) (by omega), (withWork_ok 60 v).1, (withWork_ok 60 v).2.1, Sep.of_buf (by simp [Ptr.base]) _ _⟩).1
  obtain ⟨a, w', hr, ha, hq⟩ := Act.wp_exists_ok h1 h2 (by simp [withWork])
  subst ha
  exact ⟨w', hr, (hq.2.1 rfl).1⟩

example (thr : Thr) (r : ℕ → ℝ) : ∃ w',
    ((rawDCT ℂ thr).lifetime 60 [.call (.fwd0, Ptr.base 1, Ptr.base 2, Ptr.base 3)]).Runs (withWork 60 (Spec.ofReal r)) true w' ∧
    Arr w'.heap (Ptr.base 1) 60 (Spec.ofReal (Spec.dct 60 r)) := by
  obtain ⟨h1, h2⟩ := (C42_dct0_values thr (w := withWork 60 (Spec.ofReal r)) (n := 60) (x := Ptr.base 1) (y := Ptr.base 2)
    (z := Ptr.base 3)
    ⟨(withWork_ok 60 _).1.wf, realLen_of_le (m := 30) (by omega) (by omega), by omega, (withWork_ok 60 _).1.arr⟩ (withWork_ok 60 _).2.1
    (withWork_ok 60 _).2.2 (Sep.of_buf (by simp [Ptr.base]) _ _) (Sep.of_buf (by simp [Ptr.base]) _ _)
    (Sep.of_buf (by simp [Ptr.base]) _ _)).1
  obtain ⟨a, w', hr, ha, hq⟩ := Act.wp_exists_ok h1 h2 (by simp [withWork])
  subst ha
  exact ⟨w', hr, (hq.2.1 rfl).1⟩

/-- a history as `C42_fft0_footprint` assumes -/
example {F C : Type} [DArith F] [CArith F C] [Inhabited C] (thr : Thr) (v : ℕ → C) : ∃ (o : FFT0) (w : World C),
    After (rawFFT C thr) intLen rawFFTOK (withWork 60 v) 60 o w ∧
    rawFFTOK 60 (.inv, Ptr.base 1, Ptr.base 2) w.heap := by
  have hw := (withWork_ok 60 v).1.wf
  have ok : rawFFTOK 60 (.fwd, Ptr.base 1, Ptr.base 2) (withWork 60 v).heap :=
    ⟨validLen_of_le (by omega) (by omega), (withWork_ok 60 v).1.arr.filled, (withWork_ok 60 v).2.1, Sep.of_buf (by simp [Ptr.base]) _ _⟩
  obtain ⟨o, w, ha, hk⟩ := After.exists (rawFFTSpec C thr) (n0 := 12)
    (ops := [.setup 60, .call (.fwd, Ptr.base 1, Ptr.base 2)]) hw (by simp [withWork]) (rawFFTOK.valid hw) ⟨by omega, by omega⟩
    ⟨⟨by omega, by omega⟩, ok, trivial⟩
    (Cls.use_noFail (X := rawFFT C thr) (fun _ h => FFT0.create_noFail (by omega)) (fun _ _ h => FFT0.setup_noFail (by omega)) _ (by omega) _ (by simp [Op.lenNat]))
  exact ⟨o, w, ha, ok.1, ok.2.1.keeps hk (by simp [withWork, Ptr.base]), ok.2.2.1.keeps hk (by simp [withWork, Ptr.base]), ok.2.2.2⟩

end OTFFT.Props
