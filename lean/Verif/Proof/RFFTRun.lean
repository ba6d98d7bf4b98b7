/-
Lifetimes of a `RealFFT` object with one and two transforms.
-/
import Verif.Proof.RFFTDFT

namespace OTFFT

variable {F C : Type} [DArith F] [CArith F C] [Inhabited C]

theorem Same.arr {E : Set Nat} {h h' : Heap C} {p : Ptr} {n : Nat} {v : Nat → C} (s : Same E h h') (hp : p.buf ∈ E)
    (a : Arr h p n v) : Arr h' p n v := fun i hi => (s _ hp).trans (a i hi)

theorem Same.alloc {E : Set Nat} {h h' : Heap C} {p : Ptr} {n : Nat} (s : Same E h h') (hp : p.buf ∈ E)
    (a : Alloc h p n) : Alloc h' p n := fun i hi => by rw [s _ hp]; exact a i hi

/-- arguments of a real transform: the part of `x` that is read, room for `n` cells in `x` and `y` -/
structure RealArgs (w : World C) (e : Entry) (n : Nat) (x y : Ptr) (v : Nat → C) : Prop where
  wf : w.WF
  len : RealLen n
  arr : Arr w.heap x (rfftNeed e n) v
  allocx : Alloc w.heap x n
  allocy : Alloc w.heap y n
  sep : Sep x n y n

theorem RealLen.pos {n : Nat} (h : RealLen n) : 0 < n := by
  rcases h with rfl | ⟨m, rfl, hm, hm31⟩
  · omega
  · have := hm.two; omega

theorem RFFT.computes {thr : Thr} {w : World C} {e : Entry} {n : Nat} {x y : Ptr} {v : Nat → C}
    (a : RealArgs w e n x y v) :
    ComputesIn (realFFT C thr) n [(e, x, y)] w (rfftDirty e n x y) y n (rfftOut C thr e n v) := by
  have hx := a.wf.buf_live a.len.pos a.allocx
  have hy := a.wf.buf_live a.len.pos a.allocy
  refine (realFFTSpec C thr).computesIn
    (fun i h => match i with
      | 0 => Same w.live w.heap h
      | _ => Arr h y n (rfftOut C thr e n v) ∧ ∀ l : Loc, l.1 ∈ w.live → l ∉ rfftDirty e n x y → h l = w.heap l)
    a.len.intLen a.wf (.refl _ _) ?_ ?_ ?_ (RFFT.lifetime_noFail _ (by omega) _ (lenNat_calls _))
  · rintro (_ | i) h h' s hp
    · exact hp.trans s
    · exact ⟨s.arr hy hp.1, fun l hl hd => (s l hl).trans (hp.2 l hl hd)⟩
  · rintro (_ | i) c hc o w' ow hr hp
    · cases hc
      refine Act.wp_mono (RFFT.call_spec a.len ow hr (Same.arr hp hx a.arr) (hp.alloc hx a.allocx) (hp.alloc hy a.allocy) a.sep
        (fun h => ow.disj _ h hx) (fun h => ow.disj _ h hy)) ?_
      rintro _ w2 ⟨h1, h2, h3, h4, _⟩
      exact ⟨h1, h4, h2, fun l hl hd => (h3 l hd).trans (hp l hl)⟩
    · cases hc
  · rintro h hp
    exact ⟨hp.1, fun l hl hd => hp.2 l hl fun h' => hd (Or.inr h')⟩

/-- a forward transform from `x` to `y`, then an inverse one from `y` to `z` (which may be `x`) -/
theorem RFFT.computes2 {thr : Thr} {w : World C} {f g : Entry} {n : Nat} {x y z : Ptr} {v : Nat → C}
    (a : RealArgs w f n x y v) (hf : f.isInv = false) (haz : Alloc w.heap z n) (hyz : Sep y n z n) :
    ComputesIn (realFFT C thr) n [(f, x, y), (g, y, z)] w (Region y n) z n
      (rfftOut C thr g n (rfftOut C thr f n v)) := by
  have hx := a.wf.buf_live a.len.pos a.allocx
  have hy := a.wf.buf_live a.len.pos a.allocy
  have hz := a.wf.buf_live a.len.pos haz
  have hneed : rfftNeed g n ≤ n := by
    have := a.len.pos
    unfold rfftNeed; split
    · rcases a.len with rfl | ⟨m, rfl, hm, hm31⟩
      · omega
      · have := hm.two; omega
    · omega
  refine (realFFTSpec C thr).computesIn
    (fun i h => match i with
      | 0 => Same w.live w.heap h
      | 1 => Arr h y n (rfftOut C thr f n v) ∧ Alloc h z n ∧ ∀ l : Loc, l.1 ∈ w.live → l ∉ Region y n → h l = w.heap l
      | _ => Arr h z n (rfftOut C thr g n (rfftOut C thr f n v)) ∧
        ∀ l : Loc, l.1 ∈ w.live → l ∉ Region z n ∪ Region y n → h l = w.heap l)
    a.len.intLen a.wf (.refl _ _) ?_ ?_ ?_ (RFFT.lifetime_noFail _ (by omega) _ (lenNat_calls _))
  · rintro (_ | _ | i) h h' s hp
    · exact hp.trans s
    · exact ⟨s.arr hy hp.1, s.alloc hz hp.2.1, fun l hl hd => (s l hl).trans (hp.2.2 l hl hd)⟩
    · exact ⟨s.arr hz hp.1, fun l hl hd => (s l hl).trans (hp.2 l hl hd)⟩
  · rintro (_ | _ | i) c hc o w' ow hr hp
    · cases hc
      refine Act.wp_mono (RFFT.call_spec a.len ow hr (Same.arr hp hx a.arr) (hp.alloc hx a.allocx) (hp.alloc hy a.allocy) a.sep
        (fun h => ow.disj _ h hx) (fun h => ow.disj _ h hy)) ?_
      rintro _ w2 ⟨h1, h2, h3, h4, h5⟩
      have hd : rfftDirty f n x y = Region y n := by unfold rfftDirty; rw [hf]; rfl
      rw [hd] at h3
      exact ⟨h1, h4, h2, (hp.alloc hz haz).keeps h5 hz, fun l hl hd => (h3 l hd).trans (hp l hl)⟩
    · cases hc
      refine Act.wp_mono (RFFT.call_spec a.len ow hr (fun i hi => hp.1 i (lt_of_lt_of_le hi hneed)) hp.1.alloc hp.2.1 hyz
        (fun h => ow.disj _ h hy) (fun h => ow.disj _ h hz)) ?_
      rintro _ w2 ⟨h1, h2, h3, h4, h5⟩
      refine ⟨h1, h4, h2, fun l hl hd => ?_⟩
      refine (h3 l fun h => hd ?_).trans (hp.2.2 l hl fun h => hd (Or.inr h))
      rcases RFFT.dirty_sub _ _ _ _ h with h | h
      · exact Or.inr h
      · exact Or.inl h
    · cases hc
  · rintro h hp
    exact ⟨hp.1, hp.2⟩

end OTFFT
