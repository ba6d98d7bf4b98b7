/-
C79: the transforms with IEEE 754 doubles and exception flags.
-/
import Verif.Proof.Flags
import Verif.Props.Hom

namespace OTFFT.Props

section
variable {E A F C : Type} [DArith E] [CArith E A] [DArith F] [CArith F C] {r : E → F → Prop} {R : A → C → Prop}

theorem out_par [Inhabited A] [Inhabited C] (L : ParLaws r R) (thr : Thr) (k : Kind) {n : ℕ} (hn : lenOK k n) (f : k.Fn)
    {v : ℕ → A} {v' : ℕ → C} (h : ∀ t < needOf k n f, R (v t) (v' t)) :
    ∀ t < n, R (k.out A thr n f v t) (k.out C thr n f v' t) := by
  cases k
  · exact L.fftOut_hom h
  · exact L.rfftOut_hom hn f h
  · exact L.dctOut_hom hn f h
  · exact L.blueOut_hom hn f h
  · exact L.fftOut_hom h
  · exact L.dctOut_hom hn f h

end

/-- C79: let `r` be a relation between the numbers of two arithmetics that holds between their constants and is preserved by their
operations. If the inputs of the same call in both arithmetics are related component by component, so are the results, for every
class, function, length and instruction set. -/
theorem C79_transfer {E F : Type} [FArith E] [FArith F] [Inhabited E] [Inhabited F] {r : E → F → Prop} (P : Linked r) (i : Target)
    (thr : Thr) (k : Kind) {n : ℕ} (hn : k.setupOK n) : Transfers i thr k n (BothOf r) := by
  letI := i.arith E
  letI := i.arith F
  intro w w' c c' v v' hw hw' ok ok' hf hv hv' h
  refine ⟨_, _, Kind.computes thr hw hn ok hv, Kind.computes thr hw' hn ok' hv', ?_⟩
  rw [← hf]
  rw [need_eq] at h
  exact out_par (Target.parLaws P i) thr k (lenOK_of ok) (k.fn c) h

variable [Libm]

omit [Libm] in
theorem input_quiet {d : Dbl64} {x : Rounded rnd53} (h : d.notFinite ∨ d.val = x.val) : Quiet (.input d) x := by
  rcases h with h | h
  · exact .inl h
  · obtain ⟨d⟩ := d
    cases d with
    | nan => exact .inl fun _ _ h => by cases h
    | inf s => exact .inl fun _ _ h => by cases h
    | num y z => exact .inr ⟨z, by rw [← h]; rfl⟩

/-- C79: run a transform with IEEE 754 doubles; with doubles that remember whether one of the operations they come from raised an
overflow, underflow, division-by-zero or invalid flag (or an infinity or NaN came in); and with numbers of 53 bits and unlimited
exponent. The first two agree, and every part of the result for which no flag was raised has the value the third computes. -/
theorem C79_flags (i : Target) (thr : Thr) (k : Kind) {n : ℕ} (hn : k.setupOK n) :
    letI := i.arith Dbl64
    letI := i.arith Flagged
    letI := i.arith (Rounded rnd53)
    ∀ (w : World (Xmm Dbl64)) (wf : World (Xmm Flagged)) (wr : World (Xmm (Rounded rnd53))) (c : (k.cls (Xmm Dbl64) thr).Call)
      (cf : (k.cls (Xmm Flagged) thr).Call) (cr : (k.cls (Xmm (Rounded rnd53)) thr).Call) (v : ℕ → Xmm Dbl64)
      (x : ℕ → Xmm (Rounded rnd53)), w.WF → wf.WF → wr.WF → k.callOK n c w.heap → k.callOK n cf wf.heap → k.callOK n cr wr.heap →
      k.fn c = k.fn cf → k.fn c = k.fn cr → Arr w.heap (k.input c) (k.need n c) v →
      Arr wf.heap (k.input cf) (k.need n cf) (fun t j => Flagged.input (v t j)) → Arr wr.heap (k.input cr) (k.need n cr) x →
      (∀ t < k.need n c, ∀ j, (v t j).notFinite ∨ (v t j).val = (x t j).val) →
      ∃ (out : ℕ → Xmm Dbl64) (outf : ℕ → Xmm Flagged) (outr : ℕ → Xmm (Rounded rnd53)),
        ComputesIn (k.cls (Xmm Dbl64) thr) n [c] w (k.writes n c) (k.output c) n out ∧
        ComputesIn (k.cls (Xmm Flagged) thr) n [cf] wf (k.writes n cf) (k.output cf) n outf ∧
        ComputesIn (k.cls (Xmm (Rounded rnd53)) thr) n [cr] wr (k.writes n cr) (k.output cr) n outr ∧
        ∀ t < n, ∀ j, (outf t j).d = out t j ∧ (¬ (outf t j).raised → ∃ z, out t j = ⟨.num (outr t j).val z⟩) := by
  letI := i.arith Dbl64
  letI := i.arith Flagged
  letI := i.arith (Rounded rnd53)
  intro w wf wr c cf cr v x hw hwf hwr ok okf okr hf hr hv hvf hvr h
  have nf : k.need n cf = k.need n c := by rw [need_eq, need_eq, hf]
  refine ⟨_, _, _, Kind.computes thr hw hn ok hv, Kind.computes thr hwf hn okf hvf, Kind.computes thr hwr hn okr hvr, ?_⟩
  rw [← hf, ← hr]
  rw [need_eq] at h
  have h1 := out_par (Target.parLaws linked_dbl i) thr k (lenOK_of ok) (k.fn c) (v := fun t j => Flagged.input (v t j)) (v' := v)
    (fun t _ => ⟨rfl, rfl⟩)
  have h2 := out_par (Target.parLaws linked_quiet i) thr k (lenOK_of ok) (k.fn c) (v := fun t j => Flagged.input (v t j)) (v' := x)
    (fun t ht => ⟨input_quiet (h t ht 0), input_quiet (h t ht 1)⟩)
  intro t ht j
  have e : (k.out (Xmm Flagged) thr n (k.fn c) (fun t j => Flagged.input (v t j)) t j).d = k.out (Xmm Dbl64) thr n (k.fn c) v t j := by
    have := h1 t ht
    match j with
    | 0 => exact this.1
    | 1 => exact this.2
  have q : Quiet (k.out (Xmm Flagged) thr n (k.fn c) (fun t j => Flagged.input (v t j)) t j) (k.out (Xmm (Rounded rnd53)) thr n (k.fn c) x t j) := by
    have := h2 t ht
    match j with
    | 0 => exact this.1
    | 1 => exact this.2
  refine ⟨e, fun hq => ?_⟩
  obtain ⟨z, ez⟩ := q.num hq
  exact ⟨z, by rw [← e, ez]⟩

end OTFFT.Props
