/-
Direct use of the algorithm classes.
-/
import Verif.Proof.Once

namespace OTFFT

variable {F C : Type} [DArith F] [CArith F C]

theorem algoOnce_spec {thr : Thr} {kind : AlgoKind} {n : Nat} {inv : Bool} {mode : ScaleMode} {w : World C}
    {x y : Ptr} {v : Nat → C} (hn : ValidLen n) (hk : kind.Usable n) (hx : UserArray w x n v)
    (hy : Alloc w.heap y n) (hxy : Sep x n y n) :
    (algoOnce C thr kind n inv mode x y).wp (fun ok w' => w'.live = w.live ∧
      (ok = true → Arr w'.heap x n (algoOut C thr kind inv mode n v) ∧
        ∀ l, l ∉ Region x n ∪ Region y n → w'.heap l = w.heap l) ∧
      (ok = false → w'.heap = w.heap)) w := by
  have h2 := hn.two
  have hxl : x.buf ∈ w.live := hx.wf.buf_live (by omega) hx.arr.alloc
  have hyl : y.buf ∈ w.live := hx.wf.buf_live (by omega) hy
  have post : ∀ {w' : World C}, Owned w.live [] w' → w'.live = w.live := fun a => by rw [a.live]; simp
  have same : ∀ {w' : World C}, Owned w.live [] w' → Same w.live w.heap w'.heap → w'.heap = w.heap :=
    fun a s => funext fun l => hx.wf.ext a.wf (post a) (D := ∅) (fun l hl _ => s l hl) l (by simp)
  unfold algoOnce
  refine malloc_spec (n := 0) (Owned.start hx.wf) fun r w1 o1 s1 _ => ?_
  have s1 : Same w.live w.heap w1.heap := s1.mono Set.subset_union_left
  cases r with
  | none => exact ⟨post o1, by simp, fun _ => same o1 s1⟩
  | some b =>
    refine Act.wp_seq (Algo.setup_spec (n := (n : Int)) (by omega) (by have := hn.intLen.2; omega) hk o1) ?_
    rintro ⟨a, t⟩ w2 ⟨o2, s2, hka, hr⟩
    have s2 := s1.trans s2
    have o2' : Owned w.live (a.blocks ++ []) w2 := o2.perm (by rw [List.append_nil])
    cases t with
    | true =>
      refine Act.wp_seq (a.delete_spec o2' (List.Perm.refl _)) ?_
      rintro _ w3 ⟨o3, s3⟩
      exact ⟨post o3, by simp, fun _ => same o3 (s2.trans (s3.mono Set.subset_union_left))⟩
    | false =>
      obtain ⟨hp, hr⟩ := hr rfl
      have hax : Arr w2.heap x n v := fun i hi => by rw [s2.ptr hxl]; exact hx.arr i hi
      have hay : Alloc w2.heap y n := fun i hi => by rw [s2.ptr hyl]; exact hy i hi
      have ne : ∀ {p q : Ptr}, (p.buf = 0 ∨ p.buf ∈ a.blocks) → q.buf ∈ w.live → p.buf ≠ q.buf := by
        rintro p q h hq e
        rcases h with h | h
        · exact hx.wf.null (by rw [← h, e]; exact hq)
        · exact o2.disj _ h (e ▸ hq)
      obtain ⟨h', g, ha, hf⟩ := Algo.transform_good (R := Set.univ) (D := Region x n ∪ Region y n)
        (inv := inv) (mode := mode) hn hr (by simp only at hka; rw [hka]; exact hk) hax hay hxy (ne hp.W hxl) (ne hp.W hyl)
        (ne hp.Wm hxl) (ne hp.Wm hyl) (ne hp.Ws hxl) (ne hp.Ws hyl) (Set.subset_univ _) (Set.subset_univ _)
        (fun _ => Set.subset_univ _) (fun _ => Set.subset_univ _) (fun _ => Set.subset_univ _)
        Set.subset_union_left Set.subset_union_right
      refine Act.wp_seq (Act.wp_exec (Q := fun _ w' => w' = ⟨h', w2.live⟩) g rfl) ?_
      rintro _ _ rfl
      refine Act.wp_seq (a.delete_spec (o2'.ran g) (List.Perm.refl _)) ?_
      rintro _ w3 ⟨o3, s3⟩
      have s3 : Same w.live h' w3.heap := s3.mono Set.subset_union_left
      refine ⟨post o3, fun _ => ⟨fun i hi => ?_, hx.wf.ext o3.wf (post o3) fun l hl hd => ?_⟩, by simp⟩
      · rw [s3.ptr hxl, ha i hi]
        simp only at hka
        rw [hka]
      · rw [s3 l hl, hf l (fun h => hd (Or.inl h)) (fun h => hd (Or.inr h)), s2 l hl]

theorem algoOnce_noFail {thr : Thr} {kind : AlgoKind} {n : Nat} {inv : Bool} {mode : ScaleMode} {x y : Ptr} :
    (algoOnce C thr kind n inv mode x y).NoFail fun r => r = true := by
  intro b
  refine Act.NoFail_seq (Algo.setup_noFail (by omega)) ?_
  rintro ⟨r, t⟩ ht
  simp only at ht
  subst ht
  exact Act.NoFail_seq (m := Act.exec _) (P := fun _ => True) trivial fun _ _ =>
    Act.NoFail_seq (Algo.delete_noFail (P := fun _ => True) trivial) fun _ _ => rfl

end OTFFT
