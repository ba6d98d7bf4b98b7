/-
Layer 1 for the mixed-radix algorithm: memory behaviour and functional effect, any arithmetic.
-/
import Verif.Model.MixedRadix
import Verif.Proof.Phase
import Verif.Proof.StockhamRec
import Mathlib.Data.Nat.Prime.Basic

namespace OTFFT

set_option linter.unusedSectionVars false

variable {F C : Type} [DArith F] [CArith F C]

/-! ### Lanes -/

def LaneWiseT {r b : Nat} (S : BFT r b) : Prop :=
  ∀ {F C : Type} [PZ F C] (L : Nat) (x : Fin r → Fin L → C) (t : Fin b → Fin L → C) (k : Fin r)
    (l : Fin L), S.fn (V := Fin L → C) x t k l = S.fn (V := C) (fun j => x j l) (fun j => t j l) k

theorem laneT_mix2 : LaneWiseT mix2 := by
  intro F C _ L x t k l; exact difOut_lane (C := C) lane_bf2 x (fun _ => t 0) k l
theorem laneT_mix4s (inv : Bool) : LaneWiseT (mix4s inv) := by
  intro F C _ L x t k l; exact difOut_lane (C := C) (lane_bf4 inv) x t k l
theorem laneT_mix4one (inv : Bool) : LaneWiseT (mix4one inv) := by
  intro F C _ L x t k l
  unfold mix4one
  simp only
  rw [difOut_lane (lane_bf4 inv)]
  congr 1; funext j; rw [wpow_lane, cj_lane]
theorem laneT_mix8s (inv : Bool) : LaneWiseT (mix8s inv) := by
  intro F C _ L x t k l
  unfold mix8s
  simp only
  rw [difOut_lane (lane_bf8 inv)]
  congr 1; funext j; fin_cases j <;> rfl
theorem laneT_mix8one (inv : Bool) : LaneWiseT (mix8one inv) := by
  intro F C _ L x t k l
  unfold mix8one
  simp only
  rw [difOut_lane (lane_bf8 inv)]
  congr 1; funext j; rw [wpow_lane, cj_lane]
theorem laneT_mix5 : LaneWiseT mix5 := by
  intro F C _ L x t k l; fin_cases k <;> rfl
theorem laneT_mix3 : LaneWiseT mix3 := by
  intro F C _ L x t k l; fin_cases k <;> rfl
theorem laneT_end {r : Nat} {B : BF r} (hB : LaneWise B) : LaneWiseT (mixEndBF B) := by
  intro F C _ L x t k l; exact hB L x k l
theorem laneT_end5 : LaneWiseT mixEnd5 := by
  intro F C _ L x t k l; fin_cases k <;> rfl
theorem laneT_end3 : LaneWiseT mixEnd3 := by
  intro F C _ L x t k l; fin_cases k <;> rfl

/-! ### Pure functions -/

/-- one core stage; `wv i` is table entry `i` -/
def coreG {r b : Nat} (S : BFT r b) (wv : Nat → C) (tw : Nat → Fin b → Nat) :
    Nat → (Fin r → C) → Fin r → C :=
  fun p xs => S.fn xs fun k => wv (tw p k)

/-- `Σ_j x_j · w_{ij mod k}` as the code accumulates it -/
def anySum (k i : Nat) (xv wv : Nat → C) : List Nat → C → C
  | [], z => z
  | j :: js, z => anySum k i xv wv js (addpz z (mulpz (xv j) (wv (i * j % k))))

/-- value stored for output `i` of a general-radix stage -/
def anyVal (k : Nat) (xv wv : Nat → C) (tv : Option (Nat → C)) (i : Nat) : C :=
  let z := anySum k i xv wv (List.range k) (CArith.cmk (fofNat 0) (fofNat 0))
  match tv with
  | none => z
  | some t => mulpz z (t i)

/-- general-radix core stage -/
def anyG (k : Nat) [NeZero k] (wv : Nat → C) (tv : Option (Nat → Nat → C)) :
    Nat → (Fin k → C) → Fin k → C :=
  fun p xs i => anyVal k (fun j => xs (Fin.ofNat k j)) wv (tv.map fun t => t p) i.val

/-! ### Cores and ends -/

section
variable {R D : Set Loc} {h : Heap C} {x y W : Ptr} {v wv : Nat → C} {r b : Nat} [NeZero r]
  {S : BFT r b} {path : Path} {n m s N L : Nat}

private theorem flatOmpL (m s L r N : Nat) (hL : 0 < L) (hr : 0 < r) (hLs : L ∣ s) (e : N = r * (m * s))
    (f : Nat → Nat → Task C) :
    tasks1 (N / (r * L)) (fun i => f (i / (s/L)) (i % (s/L))) = tasks2 m (cnt s L) f := by
  obtain ⟨c, rfl⟩ := hLs
  rw [cnt_of_dvd hL ⟨c, rfl⟩, Nat.mul_div_cancel_left _ hL, ← flat_eq_tasks2]
  have : N / (r * L) = m * c := by
    rw [e, show r * (m * (L * c)) = (r * L) * (m * c) by ring,
      Nat.mul_div_cancel_left _ (Nat.mul_pos hr hL)]
  rw [this]

theorem mixCore_good (hS : LaneWiseT S) {tw : Nat → Fin b → Nat} (hn : n = r * m) (hN : N = n * s)
    (hL : 0 < L) (hLs : L ∣ s)
    (hax : Arr h x N v) (hay : Alloc h y N) (hxy : Sep x N y N)
    (htw : ∀ p < m, ∀ k, tw p k ≤ N) (hW : Arr h W (N + 1) wv) (hWy : W.buf ≠ y.buf)
    (hRx : Region x N ⊆ R) (hRW : Region W (N + 1) ⊆ R) (hDy : Region y N ⊆ D) :
    ∃ h', Good R D (Items.region (mixCore C S L tw path n s x y W)) h h' ∧
      Arr h' y N (difPure r m s (coreG S wv tw) v) ∧ ∀ l, l ∉ Region y N → h' l = h l := by
  have hr : 0 < r := Nat.pos_of_ne_zero (NeZero.ne r)
  have hN' : N = s * (r * m) := by rw [hN, hn]; ring
  have hN1 : N / r = m * s := by
    rw [hN', show s * (r * m) = r * (m * s) by ring, Nat.mul_div_cancel_left _ hr]
  have hnr : n / r = m := by rw [hn, Nat.mul_div_cancel_left _ hr]
  have key : ∀ par : Bool, ∃ h', Good R D (Code.loop par (tasks2 m (cnt s L) fun p i =>
      bfly (fun j : Fin r => vec L (x + (L * i + s * p + N / r * j.val)))
      (fun k => dup L (W + tw p k))
      (fun k : Fin r => vec L (y + (L * i + r * (s * p) + s * k.val)))
      (fun X T => S.fn (V := Fin L → C) X T))) h h' ∧
      Arr h' y N (difPure r m s (coreG S wv tw) v) ∧ ∀ l, l ∉ Region y N → h' l = h l := by
    intro par
    apply difA par (coreG S wv tw) (L := L) (fun p _ k _ => wv (tw p k)) hN' hL hLs hax hay
      (Or.inl hxy)
    · intro p _ i _ j l
      rw [vec, Ptr.add_add]; apply Ptr.add_congr; rw [hN1]; ring
    · intro p _ i _ k l
      rw [vec, Ptr.add_add]; apply Ptr.add_congr; ring
    · intro p hp i hi k l
      have hlt : tw p k < N + 1 := Nat.lt_succ_of_le (htw p hp k)
      refine ⟨hW _ hlt, hRW (mem_region hlt), ?_⟩
      rw [mem_region']; rintro ⟨h1, _⟩; exact hWy h1
    · intro p hp i hi xs k l
      exact hS L xs _ k l
    · exact hRx
    · exact hDy
  unfold mixCore
  cases path with
  | serial =>
    simp only [Items.region_loop, ← hN, hnr]
    exact key _
  | omp =>
    simp only [Items.region_loop, ← hN]
    rw [flatOmpL m s L r N hL hr hLs (by rw [hN']; ring) (fun p i => bfly
        (fun j : Fin r => vec L (x + (L * i + s * p + N / r * j.val)))
        (fun k => dup L (W + tw p k))
        (fun k : Fin r => vec L (y + (L * i + r * (s * p) + s * k.val)))
        (fun X T => S.fn (V := Fin L → C) X T))]
    exact key _

theorem mixEnd_good (hS : LaneWiseT S) {tw : Fin b → Nat} {single : Bool} (hN : N = r * s)
    (hL : 0 < L) (hLs : L ∣ s)
    (hax : Arr h x N v) (hay : Alloc h y N) (hxy : Sep x N y N ∨ x = y)
    (htw : ∀ k, tw k ≤ N) (hW : Arr h W (N + 1) wv) (hWy : W.buf ≠ y.buf)
    (hRx : Region x N ⊆ R) (hRW : Region W (N + 1) ⊆ R) (hDy : Region y N ⊆ D) :
    ∃ h', Good R D (Items.region (mixEnd C S L tw path single s x y W)) h h' ∧
      Arr h' y N (difPure r 1 s (coreG S wv fun _ => tw) v) ∧ ∀ l, l ∉ Region y N → h' l = h l := by
  have hN' : N = s * (r * 1) := by rw [hN]; ring
  have hxy' : Sep x N y N ∨ (x = y ∧ 1 = 1) := by
    rcases hxy with h | h
    · exact Or.inl h
    · exact Or.inr ⟨h, rfl⟩
  unfold mixEnd
  simp only [Items.region_loop]
  rw [← tasks2_one (cnt s L) (fun _ i => bfly (fun j : Fin r => vec L (x + (L * i + s * j.val)))
      (fun k => dup L (W + tw k))
      (fun k : Fin r => vec L (y + (L * i + s * k.val)))
      (fun X T => S.fn (V := Fin L → C) X T))]
  apply difA _ (coreG S wv fun _ => tw) (L := L) (fun _ _ k _ => wv (tw k)) hN' hL hLs hax hay hxy'
  · intro p hp i _ j l
    have : p = 0 := by omega
    subst this
    rw [vec, Ptr.add_add]; apply Ptr.add_congr; ring
  · intro p hp i _ k l
    have : p = 0 := by omega
    subst this
    rw [vec, Ptr.add_add]; apply Ptr.add_congr; ring
  · intro p hp i hi k l
    have hlt : tw k < N + 1 := Nat.lt_succ_of_le (htw k)
    refine ⟨hW _ hlt, hRW (mem_region hlt), ?_⟩
    rw [mem_region']; rintro ⟨h1, _⟩; exact hWy h1
  · intro p hp i hi xs k l
    exact hS L xs _ k l
  · exact hRx
  · exact hDy

theorem mixCore_barriered {tw : Nat → Fin b → Nat} :
    Items.Barriered (mixCore C S L tw path n s x y W) := by
  unfold mixCore
  cases path
  · exact Items.barriered_loop (k := .serial) (by decide) _
  · exact Items.barriered_loop (k := .omp) (by decide) _

end

/-! ### Arbitrary radix -/

section
variable {R D : Set Loc}

theorem anyInner_tr {k i : Nat} {xa wa : Nat → Ptr} {xv wv : Nat → C} {h h' : Heap C}
    {κ : C → Task C} : ∀ (js : List Nat) (z : C),
    (∀ j ∈ js, (xa j).loc ∈ R ∧ h (xa j).loc = some (some (xv j))) →
    (∀ j ∈ js, i * j < intLim) →
    (∀ a, (∃ j ∈ js, a = i * j % k) → (wa a).loc ∈ R ∧ h (wa a).loc = some (some (wv a))) →
    Tr R D (κ (anySum k i xv wv js z)) h () h' →
    Tr R D (anyInner C k i xa wa js z κ) h () h' := by
  intro js
  induction js with
  | nil => intro z _ _ _ t; exact t
  | cons j js ih =>
    intro z hx hi hw t
    unfold anyInner
    refine Tr.load (hx j (by simp)).1 (hx j (by simp)).2 ?_
    rw [if_pos (hi j (by simp))]
    have := hw (i * j % k) ⟨j, by simp, rfl⟩
    refine Tr.load this.1 this.2 ?_
    refine ih _ (fun j' h' => hx j' (by simp [h'])) (fun j' h' => hi j' (by simp [h'])) ?_ t
    rintro a ⟨j', h1, h2⟩
    exact hw a ⟨j', by simp [h1], h2⟩

theorem Heap.set_upd (h : Heap C) (l : Loc) (S : Set Loc) (tgt : Loc → C) :
    (h.set l (tgt l)).upd S tgt = h.upd ({l} ∪ S) tgt := by
  funext l'
  by_cases hS : l' ∈ S
  · rw [Heap.upd_mem _ hS, Heap.upd_mem _ (Or.inr hS)]
  · rw [Heap.upd_not _ hS]
    by_cases h1 : l' = l
    · subst h1
      rw [Heap.set_same, Heap.upd_mem _ (Or.inl rfl)]
    · rw [Heap.set_ne _ _ h1, Heap.upd_not]
      rintro (h2 | h2)
      · exact h1 h2
      · exact hS h2

theorem Heap.upd_empty (h : Heap C) (tgt : Loc → C) : h.upd ∅ tgt = h := by
  funext l; exact Heap.upd_not _ (by simp)

theorem anyBody_tr {k : Nat} {xa wa ya : Nat → Ptr} {wip : Option (Nat → Ptr)}
    {xv wv : Nat → C} {tv : Option (Nat → C)} {tgt : Loc → C} :
    ∀ (is : List Nat) (h : Heap C),
    (∀ j < k, (xa j).loc ∈ R ∧ (xa j).loc ∉ D ∧ h (xa j).loc = some (some (xv j))) →
    (∀ i ∈ is, ∀ j < k, i * j < intLim) →
    (∀ i ∈ is, ∀ j < k, (wa (i * j % k)).loc ∈ R ∧ (wa (i * j % k)).loc ∉ D ∧
      h (wa (i * j % k)).loc = some (some (wv (i * j % k)))) →
    (match wip, tv with
      | none, none => True
      | some w, some t => ∀ i ∈ is, (w i).loc ∈ R ∧ (w i).loc ∉ D ∧ h (w i).loc = some (some (t i))
      | _, _ => False) →
    (∀ i ∈ is, (ya i).loc ∈ D ∧ h (ya i).loc ≠ none ∧ tgt (ya i).loc = anyVal k xv wv tv i) →
    Tr R D (anyBody C k xa wa wip ya is) h () (h.upd {l | ∃ i ∈ is, l = (ya i).loc} tgt) := by
  intro is
  induction is with
  | nil =>
    intro h _ _ _ _ _
    have : {l : Loc | ∃ i ∈ ([] : List Nat), l = (ya i).loc} = ∅ := by
      ext l; simp
    rw [this, Heap.upd_empty]
    exact .ret
  | cons i is ih =>
    intro h hx hi hw ht hy
    have hset : {l : Loc | ∃ i' ∈ i :: is, l = (ya i').loc} =
        {(ya i).loc} ∪ {l : Loc | ∃ i' ∈ is, l = (ya i').loc} := by
      ext l; simp
    have hyi := hy i (by simp)
    have cont : Tr R D (anyBody C k xa wa wip ya is)
        (h.set (ya i).loc (tgt (ya i).loc)) ()
        (h.upd {l | ∃ i' ∈ i :: is, l = (ya i').loc} tgt) := by
      rw [hset, ← Heap.set_upd]
      have hne : ∀ l, l ∉ D → (h.set (ya i).loc (tgt (ya i).loc)) l = h l := by
        intro l hl; exact Heap.set_ne _ _ (fun e => hl (e ▸ hyi.1))
      refine ih _ ?_ (fun i' h' => hi i' (by simp [h'])) ?_ ?_ ?_
      · intro j hj
        obtain ⟨h1, h2, h3⟩ := hx j hj
        exact ⟨h1, h2, by rw [hne _ h2, h3]⟩
      · intro i' hi' j hj
        obtain ⟨h1, h2, h3⟩ := hw i' (by simp [hi']) j hj
        exact ⟨h1, h2, by rw [hne _ h2, h3]⟩
      · cases wip with
        | none =>
          cases tv with
          | none => trivial
          | some t => exact ht
        | some w =>
          cases tv with
          | none => exact ht
          | some t =>
            intro i' hi'
            obtain ⟨h1, h2, h3⟩ := ht i' (by simp [hi'])
            exact ⟨h1, h2, by rw [hne _ h2, h3]⟩
      · intro i' hi'
        obtain ⟨h1, h2, h3⟩ := hy i' (by simp [hi'])
        refine ⟨h1, ?_, h3⟩
        unfold Heap.set; split <;> simp_all
    unfold anyBody
    refine anyInner_tr (xv := xv) (wv := wv) _ _ ?_ ?_ ?_ ?_
    · intro j hj
      obtain ⟨h1, h2, h3⟩ := hx j (by simpa using hj)
      exact ⟨h1, h3⟩
    · intro j hj; exact hi i (by simp) j (by simpa using hj)
    · rintro a ⟨j, hj, rfl⟩
      obtain ⟨h1, h2, h3⟩ := hw i (by simp) j (by simpa using hj)
      exact ⟨h1, h3⟩
    · cases wip with
      | none =>
        cases tv with
        | none =>
          refine Tr.store hyi.1 hyi.2.1 ?_
          rw [hyi.2.2] at cont
          exact cont
        | some t => exact ht.elim
      | some w =>
        cases tv with
        | none => exact ht.elim
        | some t =>
          obtain ⟨h1, h2, h3⟩ := ht i (by simp)
          refine Tr.load h1 h3 (Tr.store hyi.1 hyi.2.1 ?_)
          rw [hyi.2.2] at cont
          exact cont

variable {h : Heap C} {x y W : Ptr} {v wv : Nat → C}

theorem anyStage_good (par : Bool) {k m s N : Nat} [NeZero k] (hN : N = s * (k * m))
    (hk : k ≤ 46341)
    {xa ya : Nat → Nat → Nat → Ptr} {wi : Nat → Nat} (twi : Option (Nat → Nat → Nat))
    (hxa : ∀ p < m, ∀ q j, xa p q j = x + (q + s * (p + m * j)))
    (hya : ∀ p < m, ∀ q i, ya p q i = y + (q + s * (k * p + i)))
    (hax : Arr h x N v) (hay : Alloc h y N) (hxy : Sep x N y N)
    (hwi : ∀ a < k, wi a ≤ N) (htwi : ∀ t ∈ twi, ∀ p < m, ∀ i < k, t p i ≤ N)
    (hW : Arr h W (N + 1) wv) (hWy : W.buf ≠ y.buf)
    (hRx : Region x N ⊆ R) (hRW : Region W (N + 1) ⊆ R) (hDy : Region y N ⊆ D) :
    ∃ h', Good R D (Code.loop par (tasks2 m s fun p q =>
        anyBody C k (xa p q) (fun a => W + wi a) (twi.map fun t i => W + t p i) (ya p q)
          (List.range k))) h h' ∧
      Arr h' y N (difPure k m s (anyG k (fun a => wv (wi a)) (twi.map fun t p i => wv (t p i))) v) ∧
      ∀ l, l ∉ Region y N → h' l = h l := by
  have hk0 : 0 < k := Nat.pos_of_ne_zero (NeZero.ne k)
  rw [tasks2_eq]
  have hWn : ∀ {a : Nat}, (W + a).loc ∉ Region y N := by
    intro a; rw [mem_region']; rintro ⟨h1, _⟩; exact hWy h1
  have hltx : ∀ {p q j : Nat}, p < m → q < s → j < k → q + s * (p + m * j) < N := by
    intro p q j hp hq hj
    rw [hN]
    apply idx_lt hq
    have := idx_lt hp hj
    rw [Nat.mul_comm k m]; omega
  have hlty : ∀ {p q i : Nat}, p < m → q < s → i < k → q + s * (k * p + i) < N := by
    intro p q i hp hq hi
    rw [hN]
    apply idx_lt hq
    have := idx_lt hi hp
    omega
  have hown : ∀ {p q i : Nat}, q < s → i < k →
      (((q + s * (k * p + i)) / s / k, (q + s * (k * p + i)) % s) : Nat × Nat) = (p, q) := by
    intro p q i hq hi
    rw [idx_div hq, idx_mod hq, Nat.mul_add_div hk0, Nat.div_eq_of_lt hi, Nat.add_zero]
  have hsub : ∀ pq : Nat × Nat, (Cells y fun t => t < N ∧ (t / s / k, t % s) = pq) ⊆ Region y N := by
    rintro pq l ⟨t, ⟨ht, _⟩, rfl⟩; exact mem_region ht
  obtain ⟨h', hg, h2, h3⟩ := phase_garr (R := R) (D := D) (h := h)
    (is := List.range m ×ˢ List.range s) (nodup_prod_range _ _)
    (task := fun pq => anyBody C k (xa pq.1 pq.2) (fun a => W + wi a)
      (twi.map fun t i => W + t pq.1 i) (ya pq.1 pq.2) (List.range k))
    (fun _ => Region x N ∪ Region W (N + 1)) y N
    (difPure k m s (anyG k (fun a => wv (wi a)) (twi.map fun t p i => wv (t p i))) v)
    (fun t => (t / s / k, t % s))
    (by
      rintro ⟨p, q⟩ hpq
      simp only [List.mem_product, List.mem_range] at hpq
      obtain ⟨hp, hq⟩ := hpq
      have hset : {l : Loc | ∃ i ∈ List.range k, l = (ya p q i).loc} =
          Cells y fun t => t < N ∧ (t / s / k, t % s) = (p, q) := by
        ext l
        constructor
        · rintro ⟨i, hi, rfl⟩
          have hi : i < k := by simpa using hi
          exact ⟨_, ⟨hlty hp hq hi, hown hq hi⟩, by rw [hya p hp]⟩
        · rintro ⟨t, ⟨ht, e⟩, rfl⟩
          have e1 : t / s / k = p := congrArg Prod.fst e
          have e2 : t % s = q := congrArg Prod.snd e
          refine ⟨t / s % k, by simpa using Nat.mod_lt _ hk0, ?_⟩
          rw [hya p hp, ← e1, ← e2, Nat.div_add_mod, Nat.mod_add_div]
      have hD' : ∀ l, l ∉ Region y N →
          l ∉ (Cells y fun t => t < N ∧ (t / s / k, t % s) = (p, q)) := fun l hl h' => hl (hsub _ h')
      rw [← hset]
      refine anyBody_tr (xv := fun j => v (q + s * (p + m * j))) (wv := fun a => wv (wi a))
        (tv := (twi.map fun t i => wv (t p i))) _ _ ?_ ?_ ?_ ?_ ?_
      · intro j hj
        rw [hxa p hp, hset]
        refine ⟨Or.inl (mem_region (hltx hp hq hj)), hD' _ ?_, hax _ (hltx hp hq hj)⟩
        exact hxy.not_mem (mem_region (hltx hp hq hj))
      · intro i hi j hj
        have hi : i < k := by simpa using hi
        have : i * j ≤ 46340 * 46340 := Nat.mul_le_mul (by omega) (by omega)
        unfold intLim; omega
      · intro i hi j hj
        have ha : wi (i * j % k) < N + 1 := Nat.lt_succ_of_le (hwi _ (Nat.mod_lt _ hk0))
        exact ⟨Or.inr (mem_region ha), by rw [hset]; exact hD' _ hWn, hW _ ha⟩
      · cases twi with
        | none => trivial
        | some t =>
          intro i hi
          have hi : i < k := by simpa using hi
          have ha : t p i < N + 1 := Nat.lt_succ_of_le (htwi t rfl p hp i hi)
          exact ⟨Or.inr (mem_region ha), by rw [hset]; exact hD' _ hWn, hW _ ha⟩
      · intro i hi
        have hik : i < k := by simpa using hi
        refine ⟨⟨i, hi, rfl⟩, ?_, ?_⟩
        · rw [hya p hp]; exact hay _ (hlty hp hq hik)
        · rw [hya p hp, onArr_at]
          have := difPure_at (m := m) (anyG k (fun a => wv (wi a)) (twi.map fun t p i => wv (t p i))) v
            hq p ⟨i, hik⟩
          simp only at this
          rw [this]
          unfold anyG
          have e : ∀ (g : Nat → C) , (fun j => (fun j' : Fin k => g j'.val) (Fin.ofNat k j)) =
              fun j => g (j % k) := fun g => rfl
          simp only [Option.map_map]
          have hs : ∀ (f g : Nat → C) (js : List Nat) (z : C), (∀ j ∈ js, f j = g j) →
              anySum k i f (fun a => wv (wi a)) js z = anySum k i g (fun a => wv (wi a)) js z := by
            intro f g js
            induction js with
            | nil => intro z _; rfl
            | cons j js ih =>
              intro z hfg
              unfold anySum
              rw [hfg j (by simp)]
              exact ih _ fun j' hj' => hfg j' (by simp [hj'])
          unfold anyVal
          rw [hs _ (fun j => v (q + s * (p + m * j))) (List.range k) _ (by
            intro j hj
            have hj : j < k := by simpa using hj
            show v (q + s * (p + m * (j % k))) = _
            rw [Nat.mod_eq_of_lt hj])]
          rfl)
    (by
      intro t ht
      have hs : 0 < s := by
        rcases Nat.eq_zero_or_pos s with h0 | h0
        · rw [hN, h0] at ht; simp at ht
        · exact h0
      have h1 : t / s < k * m := Nat.div_lt_of_lt_mul (hN ▸ ht)
      have h2 : t / s / k < m := Nat.div_lt_of_lt_mul h1
      simp only [List.mem_product, List.mem_range]
      exact ⟨h2, Nat.mod_lt _ hs⟩)
    (by
      rintro pq _ l (hl | hl) t ht rfl
      · exact absurd (mem_region ht) (hxy.not_mem hl)
      · exfalso
        rw [mem_region'] at hl
        exact hWy hl.1.symm)
    (by
      rintro pq _ l (hl | hl)
      · exact hRx hl
      · exact hRW hl)
    hDy
  exact ⟨h', hg.loop par, h2, h3⟩

theorem copy_good (kind : LoopKind) {N : Nat} (hay : Arr h y N v) (hax : Alloc h x N)
    (hxy : Sep x N y N) (hRy : Region y N ⊆ R) (hDx : Region x N ⊆ D) :
    ∃ h', Good R D (Items.region (Items.loop kind (copyTasks C N x y))) h h' ∧
      Arr h' x N v ∧ ∀ l, l ∉ Region x N → h' l = h l := by
  rw [Items.region_loop]
  obtain ⟨h', hg, h2, h3⟩ := phase_arr (R := R) (D := D) (h := h) (L := 1) (a := 1) (b := 0) (c := 1)
    (List.range N) List.nodup_range
    (rd := fun p _ => vec 1 (y + p)) (tw := fun _ => Fin.elim0) (wr := fun p _ => vec 1 (x + p))
    (f := fun _ X _ => X) (fun p _ _ => v p) (fun _ => Fin.elim0) x N v (fun t => t)
    (by
      intro p hp j l
      have hp : p < N := by simpa using hp
      have : l = 0 := Subsingleton.elim _ _
      subst this
      exact hay p hp)
    (fun _ _ j => j.elim0)
    (by
      intro p hp k l
      have hp : p < N := by simpa using hp
      have : l = 0 := Subsingleton.elim _ _
      subst this
      exact ⟨p, hp, rfl, rfl, rfl⟩)
    (by
      intro t ht
      exact ⟨by simpa using ht, 0, 0, rfl⟩)
    hax
    (by
      intro p hp j l t ht e
      have hp : p < N := by simpa using hp
      have : l = 0 := Subsingleton.elim _ _
      subst this
      exact absurd e.symm (hxy t ht p hp))
    (fun _ _ j => j.elim0)
    (by
      intro p hp j l
      have hp : p < N := by simpa using hp
      have : l = 0 := Subsingleton.elim _ _
      subst this
      exact hRy (mem_region hp))
    (fun _ _ j => j.elim0)
    hDx
  exact ⟨h', hg.loop _, h2, h3⟩

end

/-! ### the factor search -/

/-- the factor search finds the smallest prime factor -/
theorem findK_eq (n : Nat) (hn : 1 < n) (hodd : n % 2 = 1) (hq : n.minFac ≤ 46341) :
    ∀ (d r : Nat), n + 2 - r = d → 3 ≤ r → r % 2 = 1 → r ≤ n.minFac → findK n r = some n.minFac := by
  have hpr : n.minFac.Prime := Nat.minFac_prime (by omega)
  have hmodd : n.minFac % 2 = 1 := by
    by_contra hc
    have h2 : 2 ∣ n.minFac := by omega
    have : 2 ∣ n := h2.trans (Nat.minFac_dvd n)
    omega
  intro d
  induction d using Nat.strong_induction_on with
  | _ d ih =>
    intro r hd hr hro hle
    have hmn : n.minFac ≤ n := Nat.minFac_le (by omega)
    rw [findK.eq_def]
    split
    · rename_i h1
      have : n.minFac ≤ r := Nat.minFac_le_of_dvd (by omega) (Nat.dvd_of_mod_eq_zero h1)
      rw [show n.minFac = r by omega]
    · rename_i h1
      have hlt : r < n.minFac := by
        rcases Nat.lt_or_eq_of_le hle with h | h
        · exact h
        · exact absurd (Nat.mod_eq_zero_of_dvd (h ▸ Nat.minFac_dvd n)) h1
      have hrr : r * r ≤ 46340 * 46340 := Nat.mul_le_mul (by omega) (by omega)
      rw [if_neg (by unfold intLim; omega)]
      split
      · rename_i h2
        have : n.Prime := by
          by_contra hc
          have := Nat.minFac_sq_le_self (by omega) hc
          rw [pow_two] at this
          have : r * r ≤ n.minFac * n.minFac := Nat.mul_le_mul hlt.le hlt.le
          omega
        rw [this.minFac_eq]
      · rename_i h2
        exact ih (n + 2 - (r + 2)) (by omega) (r + 2) rfl (by omega) (by omega) (by omega)

end OTFFT
