/-
C20, C21: what the cosine transforms compute.
-/
import Verif.Proof.DCTDFT
import Verif.Props.Real

namespace OTFFT

variable {F C : Type} [DArith F] [CArith F C] [Inhabited C]

/-- any sequence of transforms of one array, any arithmetic -/
theorem DCT.computes {thr : Thr} {w : World C} {n : Nat} {x : Ptr} {v : Nat → C} (wf : w.WF) (hn : RealLen n) (h30 : n < 2 ^ 30)
    (hx : Arr w.heap x n v) (es : List DctEntry) :
    ComputesIn (realDCT C thr) n (es.map fun e => (e, x)) w ∅ x n (es.foldl (fun u e => dctOut C thr e n u) v) := by
  have hl := wf.buf_live hn.pos hx.alloc
  refine (realDCTSpec C thr).computesIn
    (fun i h => Arr h x n ((es.take i).foldl (fun u e => dctOut C thr e n u) v) ∧
      ∀ l : Loc, l.1 ∈ w.live → l ∉ Region x n → h l = w.heap l)
    ⟨by omega, by omega⟩ wf ⟨by simpa using hx, fun _ _ _ => rfl⟩ ?_ ?_ ?_ (DCT.lifetime_noFail _ (by omega) _ (lenNat_calls _))
  · rintro i h h' s ⟨a, b⟩
    exact ⟨s.arr hl a, fun l h1 h2 => (s l h1).trans (b l h1 h2)⟩
  · rintro i c hc o w' ow hr ⟨a, b⟩
    have hc' : (es.map fun e => ((e, x) : DctEntry × Ptr))[i]? = some c := hc
    rw [List.getElem?_map] at hc'
    obtain ⟨e, he, rfl⟩ := Option.map_eq_some_iff.1 hc'
    refine Act.wp_mono (DCT.call_spec hn ow hr a (fun h => ow.disj _ h hl)) ?_
    rintro _ w2 ⟨h1, h2, h3, h4, _⟩
    refine ⟨h1, h4, ?_, fun l hl1 hl2 => (h3 l (fun h => ow.disj _ h hl1) hl2).trans (b l hl1 hl2)⟩
    rw [List.take_succ, he, Option.toList, List.foldl_append]
    exact h2
  · rintro h ⟨a, b⟩
    have hlen : (es.map fun e => ((e, x) : DctEntry × Ptr)).length = es.length := List.length_map _
    have a : Arr h x n ((es.take ((es.map fun e => ((e, x) : DctEntry × Ptr)).length)).foldl (fun u e => dctOut C thr e n u) v) := a
    rw [hlen, List.take_length] at a
    exact ⟨a, fun l h1 h2 => b l h1 fun h => h2 (Or.inl h)⟩

end OTFFT

namespace OTFFT.Props
open OTFFT

variable {thr : Thr} {n : ℕ} {w : World ℂ} {x : Ptr}

/-- the argument of a cosine transform: a real vector -/
structure DctArgs (w : World ℂ) (n : ℕ) (x : Ptr) (r : ℕ → ℝ) : Prop where
  wf : w.WF
  len : RealLen n
  int : n < 2 ^ 30
  arr : Arr w.heap x n (Spec.ofReal r)

theorem dct_one {r s : ℕ → ℝ} (thr : Thr) (a : DctArgs w n x r) (e : DctEntry)
    (h : ∀ t < n, dctOut ℂ thr e n (Spec.ofReal r) t = Spec.ofReal s t) :
    Computes (realDCT ℂ thr) n [(e, x)] w x n (Spec.ofReal s) :=
  ComputesIn.toComputes (DCT.computes a.wf a.len a.int a.arr [e]) (Set.empty_subset _) h

/-- C20: `fwd0` is the DCT-II, `fwd` and `fwdn` are the DCT-II divided by `n`. In place; nothing else changes. -/
theorem C20_forward {r : ℕ → ℝ} (thr : Thr) (a : DctArgs w n x r) :
    Computes (realDCT ℂ thr) n [(.fwd0, x)] w x n (Spec.ofReal (Spec.dct n r)) ∧
    Computes (realDCT ℂ thr) n [(.fwd, x)] w x n (Spec.ofReal fun k => Spec.dct n r k / n) ∧
    Computes (realDCT ℂ thr) n [(.fwdn, x)] w x n (Spec.ofReal fun k => Spec.dct n r k / n) := by
  refine ⟨dct_one thr a _ fun t ht => ?_, dct_one thr a _ fun t ht => ?_, dct_one thr a _ fun t ht => ?_⟩ <;>
    (rw [dctOut_fwd thr rfl a.len r ht]; simp [scC, DctEntry.mode, DctEntry.real, Entry.mode, Spec.ofReal]; try ring)

/-- C20: `inv` and `inv0` are the DCT-III, `invn` is the DCT-III divided by `n`. -/
theorem C20_inverse {r : ℕ → ℝ} (thr : Thr) (a : DctArgs w n x r) :
    Computes (realDCT ℂ thr) n [(.inv0, x)] w x n (Spec.ofReal (Spec.dct3 n r)) ∧
    Computes (realDCT ℂ thr) n [(.inv, x)] w x n (Spec.ofReal (Spec.dct3 n r)) ∧
    Computes (realDCT ℂ thr) n [(.invn, x)] w x n (Spec.ofReal fun k => Spec.dct3 n r k / n) := by
  refine ⟨dct_one thr a _ fun t ht => ?_, dct_one thr a _ fun t ht => ?_, dct_one thr a _ fun t ht => ?_⟩ <;>
    (rw [dctOut_inv thr rfl a.len r ht]; simp [scC, DctEntry.mode, DctEntry.real, Entry.mode, Spec.ofReal]; try ring)

theorem _root_.OTFFT.RealLen.even {n : ℕ} (h : RealLen n) : n = 1 ∨ ∃ m, 0 < m ∧ n = 2 * m := by
  rcases h with h | ⟨m, rfl, hm, _⟩
  · exact Or.inl h
  · exact Or.inr ⟨m, by have := hm.two; omega, rfl⟩

theorem dctOut_dep (thr : Thr) {e : DctEntry} {n : ℕ} (hn : RealLen n) (h30 : n < 2 ^ 30) {v : ℕ → ℂ} {r : ℕ → ℝ}
    (h : ∀ t < n, v t = Spec.ofReal r t) {t : ℕ} (ht : t < n) :
    dctOut ℂ thr e n v t = dctOut ℂ thr e n (Spec.ofReal r) t := by
  -- two runs on the same memory contents
  have a : Arr (oneArray n v).heap (Ptr.base 1) n (Spec.ofReal r) := fun i hi => by
    rw [← h i hi]; exact (oneArray_ok n v).arr i hi
  obtain ⟨h1, h2⟩ := DCT.computes (thr := thr) (oneArray_ok n v).wf hn h30 (oneArray_ok n v).arr [e]
  obtain ⟨h3, _⟩ := DCT.computes (thr := thr) (oneArray_ok n v).wf hn h30 a [e]
  obtain ⟨ok, w', hr, hok, hq⟩ := Act.wp_exists_ok h1 h2 (by simp [oneArray])
  subst hok
  have e1 := (hq.2.1 rfl).1 t ht
  have e2 := ((Act.wp_runs h3 hr).2.1 rfl).1 t ht
  exact Option.some.inj (Option.some.inj (e1.symm.trans e2))

/-- transform pairs whose normalisations cancel -/
theorem dct_pair (hpos : 0 < n) {f g : DctEntry}
    (hfg : (f, g) ∈ [(DctEntry.fwd, DctEntry.inv), (.fwd, .inv0), (.fwdn, .inv), (.fwdn, .inv0), (.fwd0, .invn)]) :
    ∃ c d : ℝ, f.isInv = false ∧ g.isInv = true ∧ scC n f.mode = c ∧ scC n g.mode = d ∧ c * d * n = 1 := by
  have h0 : (n : ℝ) ≠ 0 := by exact_mod_cast (by omega : n ≠ 0)
  simp only [List.mem_cons, Prod.mk.injEq, List.not_mem_nil, or_false] at hfg
  rcases hfg with ⟨rfl, rfl⟩ | ⟨rfl, rfl⟩ | ⟨rfl, rfl⟩ | ⟨rfl, rfl⟩ | ⟨rfl, rfl⟩
  · exact ⟨1 / n, 1, rfl, rfl, by simp [scC, DctEntry.mode, DctEntry.real, Entry.mode], by simp [scC, DctEntry.mode, DctEntry.real, Entry.mode], by field_simp⟩
  · exact ⟨1 / n, 1, rfl, rfl, by simp [scC, DctEntry.mode, DctEntry.real, Entry.mode], by simp [scC, DctEntry.mode, DctEntry.real, Entry.mode], by field_simp⟩
  · exact ⟨1 / n, 1, rfl, rfl, by simp [scC, DctEntry.mode, DctEntry.real, Entry.mode], by simp [scC, DctEntry.mode, DctEntry.real, Entry.mode], by field_simp⟩
  · exact ⟨1 / n, 1, rfl, rfl, by simp [scC, DctEntry.mode, DctEntry.real, Entry.mode], by simp [scC, DctEntry.mode, DctEntry.real, Entry.mode], by field_simp⟩
  · exact ⟨1, 1 / n, rfl, rfl, by simp [scC, DctEntry.mode, DctEntry.real, Entry.mode], by simp [scC, DctEntry.mode, DctEntry.real, Entry.mode], by field_simp⟩

theorem dctOut_twice (thr : Thr) (hl : RealLen n) (h30 : n < 2 ^ 30) (r : ℕ → ℝ) {f g : DctEntry}
    (key : ∃ c d : ℝ, f.isInv = false ∧ g.isInv = true ∧ scC n f.mode = c ∧ scC n g.mode = d ∧ c * d * n = 1) {t : ℕ} (ht : t < n) :
    dctOut ℂ thr g n (dctOut ℂ thr f n (Spec.ofReal r)) t = Spec.ofReal r t ∧
    dctOut ℂ thr f n (dctOut ℂ thr g n (Spec.ofReal r)) t = Spec.ofReal r t := by
  obtain ⟨c, d, hf, hg, hc, hd, hcd⟩ := key
  have ef : ∀ (s : ℕ → ℝ), ∀ t < n, dctOut ℂ thr f n (Spec.ofReal s) t = Spec.ofReal (fun k => c * Spec.dct n s k) t := by
    intro s t ht
    rw [dctOut_fwd thr hf hl s ht, hc]; simp [Spec.ofReal]
  have eg : ∀ (s : ℕ → ℝ), ∀ t < n, dctOut ℂ thr g n (Spec.ofReal s) t = Spec.ofReal (fun k => d * Spec.dct3 n s k) t := by
    intro s t ht
    rw [dctOut_inv thr hg hl s ht, hd]; simp [Spec.ofReal]
  have lin3 : ∀ (s : ℕ → ℝ) t, Spec.dct3 n (fun k => c * s k) t = c * Spec.dct3 n s t := by
    intro s t
    unfold Spec.dct3
    rw [Finset.mul_sum]
    exact Finset.sum_congr rfl fun k _ => by ring
  have lin2 : ∀ (s : ℕ → ℝ) t, Spec.dct n (fun k => d * s k) t = d * Spec.dct n s t := by
    intro s t
    unfold Spec.dct
    rw [Finset.mul_sum]
    exact Finset.sum_congr rfl fun k _ => by ring
  constructor
  · rw [dctOut_dep thr hl h30 (ef r) ht, eg _ t ht]
    simp only [Spec.ofReal]
    rw [lin3, dct3_dct hl.even r ht]
    congr 1
    linear_combination (r t) * hcd
  · rw [dctOut_dep thr hl h30 (eg r) ht, ef _ t ht]
    simp only [Spec.ofReal]
    rw [lin2, dct_dct3 hl.even r ht]
    congr 1
    linear_combination (r t) * hcd

/-- C21: an inverse transform after the matching forward transform, in either order, restores every real vector. -/
theorem C21_round_trip {r : ℕ → ℝ} (thr : Thr) (a : DctArgs w n x r) (f g : DctEntry)
    (hfg : (f, g) ∈ [(DctEntry.fwd, DctEntry.inv), (.fwd, .inv0), (.fwdn, .inv), (.fwdn, .inv0), (.fwd0, .invn)]) :
    Computes (realDCT ℂ thr) n [(f, x), (g, x)] w x n (Spec.ofReal r) ∧
    Computes (realDCT ℂ thr) n [(g, x), (f, x)] w x n (Spec.ofReal r) :=
  have key := dct_pair a.len.pos hfg
  ⟨ComputesIn.toComputes (DCT.computes a.wf a.len a.int a.arr [f, g]) (Set.empty_subset _) fun _ ht =>
      (dctOut_twice thr a.len a.int r key ht).1,
    ComputesIn.toComputes (DCT.computes a.wf a.len a.int a.arr [g, f]) (Set.empty_subset _) fun _ ht =>
      (dctOut_twice thr a.len a.int r key ht).2⟩

/-! ### the hypotheses can be met -/

theorem oneArray_dct (hn : RealLen n) (h30 : n < 2 ^ 30) (r : ℕ → ℝ) : DctArgs (oneArray n (Spec.ofReal r)) n (Ptr.base 1) r :=
  ⟨(oneArray_ok n _).wf, hn, h30, (oneArray_ok n _).arr⟩

example (thr : Thr) (r : ℕ → ℝ) : ∀ n ∈ ([1, 4, 10, 1000, 2 ^ 20, 2 * 46337] : List ℕ), ∃ w',
    ((realDCT ℂ thr).lifetime n [.call (.fwd0, Ptr.base 1)]).Runs (oneArray n (Spec.ofReal r)) true w' ∧
    Arr w'.heap (Ptr.base 1) n (Spec.ofReal (Spec.dct n r)) := by
  intro n hn
  have h30 : n < 2 ^ 30 := by
    simp only [List.mem_cons, List.not_mem_nil, or_false] at hn
    omega
  have hl : RealLen n := by
    simp only [List.mem_cons, List.not_mem_nil, or_false] at hn
    rcases hn with rfl | rfl | rfl | rfl | rfl | rfl
    · exact Or.inl rfl
    · exact realLen_of_le (m := 2) (by omega) (by omega)
    · exact realLen_of_le (m := 5) (by omega) (by omega)
    · exact realLen_of_le (m := 500) (by omega) (by omega)
    · exact Or.inr ⟨2 ^ 19, by norm_num, validLen_pow 19 (by omega) (by omega), by omega⟩
    · exact realLen_of_le (m := 46337) (by omega) (by omega)
  obtain ⟨h1, h2⟩ := (C20_forward thr (oneArray_dct hl h30 r)).1
  obtain ⟨a, w', hr, ha, hq⟩ := Act.wp_exists_ok h1 h2 (by simp [oneArray])
  subst ha
  exact ⟨w', hr, (hq.2.1 rfl).1⟩

example (thr : Thr) (r : ℕ → ℝ) : ∃ w',
    ((realDCT ℂ thr).lifetime 60 [.call (.fwd, Ptr.base 1), .call (.inv, Ptr.base 1)]).Runs
      (oneArray 60 (Spec.ofReal r)) true w' ∧ Arr w'.heap (Ptr.base 1) 60 (Spec.ofReal r) := by
  obtain ⟨h1, h2⟩ := (C21_round_trip thr (oneArray_dct (realLen_of_le (m := 30) (by omega) (by omega)) (by omega) r) .fwd .inv (by simp)).1
  obtain ⟨b, w', hr, hb, hq⟩ := Act.wp_exists_ok h1 h2 (by simp [oneArray])
  subst hb
  exact ⟨w', hr, (hq.2.1 rfl).1⟩

end OTFFT.Props
