/-
Many round trips with one `RealFFT` object.
-/
import Verif.Proof.RFFTRun

namespace OTFFT

variable {F C : Type} [DArith F] [CArith F C] [Inhabited C]

theorem getElem?_pairs {α β : Type} (A B : α → β) : ∀ (ps : List α) (i : Nat),
    (ps.flatMap fun p => [A p, B p])[i]? = if i % 2 = 0 then ps[i / 2]?.map A else ps[i / 2]?.map B
  | [], i => by simp
  | p :: ps, 0 => by simp
  | p :: ps, 1 => by simp
  | p :: ps, i + 2 => by
    have := getElem?_pairs A B ps i
    rw [show (i + 2) % 2 = i % 2 by omega, show (i + 2) / 2 = i / 2 + 1 by omega]
    simpa using this

theorem length_pairs {α β : Type} (A B : α → β) (ps : List α) : (ps.flatMap fun p => [A p, B p]).length = 2 * ps.length := by
  induction ps with
  | nil => rfl
  | cons p ps ih => rw [List.flatMap_cons, List.length_append, ih]; simp; ring

/-- values after round trips with the pairs `ps` of a forward and an inverse entry point -/
noncomputable def rfftTrips (C : Type) [CArith F C] (thr : Thr) (n : Nat) (ps : List (Entry × Entry)) (v : Nat → C) : Nat → C :=
  ps.foldl (fun u p => rfftOut C thr p.2 n (rfftOut C thr p.1 n u)) v

/-- forward from `x` to `y`, inverse from `y` to `x`, again and again -/
theorem RFFT.trips {thr : Thr} {w : World C} {n : Nat} {x y : Ptr} {v : Nat → C} (hw : w.WF) (hn : RealLen n)
    (hx : Arr w.heap x n v) (hy : Alloc w.heap y n) (hxy : Sep x n y n) (ps : List (Entry × Entry)) (hf : ∀ p ∈ ps, p.1.isInv = false) :
    ComputesIn (realFFT C thr) n (ps.flatMap fun p => [(p.1, x, y), (p.2, y, x)]) w (Region y n) x n (rfftTrips C thr n ps v) := by
  have lx := hw.buf_live hn.pos hx.alloc
  have ly := hw.buf_live hn.pos hy
  have hneed : ∀ g, rfftNeed g n ≤ n := by
    intro g
    have := hn.pos
    unfold rfftNeed; split
    · rcases hn with rfl | ⟨m, rfl, hm, hm31⟩
      · omega
      · have := hm.two; omega
    · omega
  refine (realFFTSpec C thr).computesIn
    (fun i h => (if i % 2 = 0 then Arr h x n (rfftTrips C thr n (ps.take (i / 2)) v) ∧ Alloc h y n
      else (∀ p, ps[i / 2]? = some p → Arr h y n (rfftOut C thr p.1 n (rfftTrips C thr n (ps.take (i / 2)) v))) ∧ Alloc h x n) ∧
      ∀ l : Loc, l.1 ∈ w.live → l ∉ Region x n ∪ Region y n → h l = w.heap l)
    hn.intLen hw ⟨by rw [if_pos rfl]; exact ⟨hx, hy⟩, fun _ _ _ => rfl⟩ ?_ ?_ ?_ (RFFT.lifetime_noFail _ (by omega) _ (lenNat_calls _))
  · rintro i h h' s ⟨hp, hd⟩
    refine ⟨?_, fun l hl hd' => (s l hl).trans (hd l hl hd')⟩
    rcases Nat.mod_two_eq_zero_or_one i with h0 | h1
    · rw [if_pos h0] at hp ⊢
      exact ⟨s.arr lx hp.1, s.alloc ly hp.2⟩
    · rw [if_neg (by omega)] at hp ⊢
      exact ⟨fun p h => s.arr ly (hp.1 p h), s.alloc lx hp.2⟩
  · rintro i c hc o w' ow hr ⟨hp, hd⟩
    replace hc := (getElem?_pairs (fun p : Entry × Entry => (p.1, x, y)) (fun p => (p.2, y, x)) ps i).symm.trans hc
    rcases Nat.mod_two_eq_zero_or_one i with h0 | h1
    · rw [if_pos h0] at hc hp
      obtain ⟨p, hpi, rfl⟩ := Option.map_eq_some_iff.1 hc
      have hinv := hf p (List.mem_of_getElem? hpi)
      refine Act.wp_mono (RFFT.call_spec hn ow hr (fun i hi => hp.1 i (lt_of_lt_of_le hi (hneed _))) hp.1.alloc hp.2 hxy
        (fun h => ow.disj _ h lx) (fun h => ow.disj _ h ly)) ?_
      rintro _ w2 ⟨g1, g2, g3, g4, g5⟩
      have hdirty : rfftDirty p.1 n x y = Region y n := by unfold rfftDirty; rw [hinv]; rfl
      rw [hdirty] at g3
      refine ⟨g1, g4, ?_, fun l hl hd' => (g3 l fun h => hd' (Or.inr h)).trans (hd l hl hd')⟩
      rw [if_neg (by omega), show (i + 1) / 2 = i / 2 by omega]
      refine ⟨fun q hq => ?_, hp.1.alloc.keeps g5 lx⟩
      obtain rfl : p = q := Option.some.inj (hpi.symm.trans hq)
      exact g2
    · rw [if_neg (by omega)] at hc hp
      obtain ⟨p, hpi, rfl⟩ := Option.map_eq_some_iff.1 hc
      have ha := hp.1 p hpi
      refine Act.wp_mono (RFFT.call_spec hn ow hr (fun i hi => ha i (lt_of_lt_of_le hi (hneed _))) ha.alloc hp.2 hxy.symm
        (fun h => ow.disj _ h ly) (fun h => ow.disj _ h lx)) ?_
      rintro _ w2 ⟨g1, g2, g3, g4, g5⟩
      refine ⟨g1, g4, ?_, fun l hl hd' => ?_⟩
      · rw [if_pos (by omega), show (i + 1) / 2 = i / 2 + 1 by omega, List.take_add_one, hpi]
        refine ⟨?_, ha.alloc.keeps g5 ly⟩
        unfold rfftTrips at g2 ⊢
        rw [Option.toList_some, List.foldl_append]
        exact g2
      · refine (g3 l fun h => hd' ?_).trans (hd l hl hd')
        rcases RFFT.dirty_sub _ _ _ _ h with h | h
        · exact Or.inr h
        · exact Or.inl h
  · rintro h ⟨hp, hd⟩
    have key : ∀ L, L = 2 * ps.length → (if L % 2 = 0 then Arr h x n (rfftTrips C thr n (ps.take (L / 2)) v) ∧ Alloc h y n
      else (∀ p, ps[L / 2]? = some p → Arr h y n (rfftOut C thr p.1 n (rfftTrips C thr n (ps.take (L / 2)) v))) ∧ Alloc h x n) →
        Arr h x n (rfftTrips C thr n ps v) := by
      rintro _ rfl hp
      rw [if_pos (by omega), show 2 * ps.length / 2 = ps.length by omega, List.take_length] at hp
      exact hp.1
    exact ⟨key _ (length_pairs (fun p : Entry × Entry => (p.1, x, y)) (fun p => (p.2, y, x)) ps) hp, hd⟩

end OTFFT
