/-
Allocation and tables: what `setup` of the algorithm classes and of `FFT0` establishes.
-/
import Verif.Model.Objects
import Verif.Proof.Act
import Verif.Proof.SixDFT

namespace OTFFT

variable {F C : Type} [DArith F] [CArith F C]

/-- two lists of blocks with the same elements -/
macro "blocks_perm" : tactic =>
  `(tactic| (refine List.perm_iff_count.2 fun a => ?_; simp only [List.count_append, List.count_cons,
      List.count_nil, Option.toList_none, Option.toList_some, List.append_nil, List.nil_append] <;> omega))

section sarr
variable {C : Type} {E : Set Nat} {w : World C} {bs rest : List Nat} {a : SArr}

theorem release_spec (o : Owned E bs w) (hp : bs.Perm (a.toList ++ rest)) :
    (SArr.release C a).wp (fun _ w' => Owned E rest w' ∧
      Same (E ∪ {b | b ∈ rest}) w.heap w'.heap) w := by
  have o := o.perm hp
  cases a with
  | none => exact ⟨by simpa using o, Same.refl _ _⟩
  | some b =>
    have o1 : Owned E (b :: rest) w := by simpa using o
    refine ⟨?_, o1.freed, ?_⟩
    · rw [o1.live]; exact Or.inr List.mem_cons_self
    · exact (Owned.split (as := [b]) (bs := rest) o1).same_free

theorem malloc_spec {n : Nat} {α : Type} {k : Option Nat → Act C α} {Q : α → World C → Prop}
    (o : Owned E rest w) (hk : ∀ (r : SArr) w', Owned E (r.toList ++ rest) w' →
      Same (E ∪ {b | b ∈ rest}) w.heap w'.heap → (∀ b, r = some b → Alloc w'.heap (Ptr.base b) n) →
      (k r).wp Q w') : (Act.malloc n k).wp Q w := by
  refine ⟨hk none w (by simpa using o) (Same.refl _ _) (by simp), fun b h0 hb => ?_⟩
  refine hk (some b) _ (by simpa using o.alloced h0 hb) ?_ ?_
  · have o' : Owned (E ∪ {b | b ∈ rest}) [] w := Owned.split (as := []) o
    exact o'.same_alloc hb
  · rintro b' ⟨⟩; exact World.alloc_alloc

theorem sarr_setup_spec {n : Nat} (o : Owned E bs w) (hp : bs.Perm (a.toList ++ rest)) :
    (SArr.setup C a n).wp (fun r w' => Owned E (r.toList ++ rest) w' ∧
      Same (E ∪ {b | b ∈ rest}) w.heap w'.heap ∧
      ∀ b, r = some b → Alloc w'.heap (Ptr.base b) n) w := by
  unfold SArr.setup
  rw [if_neg (show ¬ (n : Int) < 0 by omega)]
  refine Act.wp_seq (release_spec o hp) ?_
  rintro _ w1 ⟨o1, s1⟩
  exact malloc_spec o1 fun r w' o' s' al => ⟨o', s1.trans s', al⟩

/-- the same for any `int` -/
theorem sarr_setupI_spec {n : Int} (o : Owned E bs w) (hp : bs.Perm (a.toList ++ rest)) :
    (SArr.setup C a n).wp (fun r w' => Owned E (r.toList ++ rest) w' ∧
      Same (E ∪ {b | b ∈ rest}) w.heap w'.heap ∧
      ∀ b, r = some b → 0 ≤ n ∧ Alloc w'.heap (Ptr.base b) n.toNat) w := by
  by_cases hn : n < 0
  · unfold SArr.setup
    rw [if_pos hn]
    refine Act.wp_seq (release_spec o hp) ?_
    rintro _ w1 ⟨o1, s1⟩
    exact ⟨by simpa using o1, s1, by simp⟩
  · obtain ⟨m, rfl⟩ := Int.eq_ofNat_of_zero_le (not_lt.1 hn)
    refine Act.wp_mono (sarr_setup_spec o hp) ?_
    rintro r w' ⟨h1, h2, h3⟩
    exact ⟨h1, h2, fun b hb => ⟨not_lt.1 hn, h3 b hb⟩⟩

/-- an `int` expression that does not overflow has no effect -/
theorem Act.int_ok {n : Int} (h0 : -2 ^ 31 ≤ n) (h1 : n < 2 ^ 31) : Act.int (C := C) n = .ret () := if_pos ⟨h0, h1⟩

theorem Act.int_seq {α : Type} {n : Int} {f : Unit → Act C α} {Q : α → World C → Prop} {w : World C}
    (h0 : -2 ^ 31 ≤ n) (h1 : n < 2 ^ 31) (h : (f ()).wp Q w) : (Act.int n >>= f).wp Q w := by
  rw [Act.int_ok h0 h1]; exact h

end sarr

/-! ### algorithm objects -/

/-- which table content and which lengths an algorithm object is ready for -/
def Algo.Ready (C : Type) [CArith F C] (thr : Thr) (o : Algo) (n : Nat) (h : Heap C) : Prop :=
  match o.kind with
  | .stock dit rad => n = 2 ^ o.logN ∧ TabOK C (thr.of dit rad) rad.num n h o.W
  | .six => n = 2 ^ o.logN ∧ SixReady C o.logN h o.W o.Wm o.Ws
  | .mixed => o.N = n ∧ (1 ≤ n → Arr h o.W (n + 1) (mixTabVal C n))

/-- the table pointers point to owned blocks or are null -/
structure Algo.PtrOK (o : Algo) : Prop where
  W : o.W.buf = 0 ∨ o.W.buf ∈ o.blocks
  Wm : o.Wm.buf = 0 ∨ o.Wm.buf ∈ o.blocks
  Ws : o.Ws.buf = 0 ∨ o.Ws.buf ∈ o.blocks

theorem Same.null {E : Set Nat} {w w' : World C} (s : Same E w.heap w'.heap) (a : w.WF) (b : w'.WF) :
    Same (insert 0 E) w.heap w'.heap := by
  rintro l (h | h)
  · rw [a.dead l (h ▸ a.null), b.dead l (h ▸ b.null)]
  · exact s l h

theorem Same.ptr {E : Set Nat} {h h' : Heap C} (s : Same E h h') {p : Ptr} (hp : p.buf ∈ E) (i : Nat) :
    h' (p + i).loc = h (p + i).loc := s _ hp

theorem Algo.Ready.frame {thr : Thr} {o : Algo} {n : Nat} {h h' : Heap C} (r : o.Ready C thr n h)
    (p : o.PtrOK) (s : Same (insert 0 {b | b ∈ o.blocks}) h h') : o.Ready C thr n h' := by
  have hW : o.W.buf ∈ insert 0 {b | b ∈ o.blocks} := p.W
  have hWm : o.Wm.buf ∈ insert 0 {b | b ∈ o.blocks} := p.Wm
  have hWs : o.Ws.buf ∈ insert 0 {b | b ∈ o.blocks} := p.Ws
  unfold Algo.Ready at *
  split
  · rename_i dit rad hk
    rw [hk] at r
    exact ⟨r.1, r.2.frame fun i _ => s.ptr hW i⟩
  · rename_i hk
    rw [hk] at r
    exact ⟨r.1, r.2.frame (fun i _ => s.ptr hW i) (fun i _ => s.ptr hWm i) (fun i _ => s.ptr hWs i)⟩
  · rename_i hk
    rw [hk] at r
    exact ⟨r.1, fun hn i hi => by rw [s.ptr hW i]; exact r.2 hn i hi⟩

/-- building a table in an owned block -/
theorem table_step {E : Set Nat} {w : World C} {b n : Nat} {rest : List Nat} {c : Code C}
    {P : Heap C → Prop} (o : Owned E (b :: rest) w)
    (hg : ∃ h', Good Set.univ (Region (Ptr.base b) n) c w.heap h' ∧ P h' ∧
      ∀ l, l ∉ Region (Ptr.base b) n → h' l = w.heap l) :
    (Act.exec c).wp (fun _ w' => Owned E (b :: rest) w' ∧
      Same (E ∪ {b | b ∈ rest}) w.heap w'.heap ∧ P w'.heap) w := by
  obtain ⟨h', g, hP, hf⟩ := hg
  refine Act.wp_exec g ⟨o.ran g, ?_, hP⟩
  intro l hl
  refine hf l ?_
  rintro ⟨i, _, rfl⟩
  exact (Owned.split (as := [b]) o).disj b (by simp) hl

/-- the outcome of a successful or failed `setup` of an algorithm object -/
def AlgoPost (C : Type) [CArith F C] (thr : Thr) (E : Set Nat) (kind : AlgoKind) (n : Nat) (h : Heap C)
    (r : Algo × Bool) (w' : World C) : Prop :=
  Owned E r.1.blocks w' ∧ Same E h w'.heap ∧ r.1.kind = kind ∧
    (r.2 = false → r.1.PtrOK ∧ r.1.Ready C thr n w'.heap)

theorem Radix.dvd_pow (rad : Radix) {k : Nat} (h : rad.num < 2 ^ k) : rad.num ∣ 2 ^ k := by
  have h4 : ∀ j, 2 ^ j < 2 ^ k → 2 ^ j ∣ 2 ^ k := fun j h =>
    pow_dvd_pow 2 (Nat.pow_lt_pow_iff_right (by omega) |>.1 h).le
  cases rad
  · exact h4 2 h
  · exact h4 3 h
  · exact h4 4 h

theorem Radix.pos (rad : Radix) : 0 < rad.num := by cases rad <;> decide

section algo
variable {thr : Thr} {E : Set Nat} {w : World C} {b : Nat}

theorem stockSetup2_spec {dit : Bool} {rad : Radix} {k : Nat} (o : Owned E [b] w) :
    (stockSetup2 C thr dit rad (Algo.fresh (.stock dit rad) b) k).wp
      (AlgoPost C thr E (.stock dit rad) (2 ^ k) w.heap) w := by
  unfold stockSetup2
  simp only
  split
  · rename_i h
    refine ⟨o, Same.refl _ _, rfl, fun _ => ⟨⟨Or.inl rfl, Or.inl rfl, Or.inl rfl⟩, rfl, ?_⟩⟩
    intro hlt; exact absurd hlt (by omega)
  · refine Act.wp_seq (sarr_setup_spec (rest := [b]) o (List.Perm.refl _)) ?_
    rintro r w1 ⟨o1, s1, al⟩
    have s1' : Same E w.heap w1.heap := s1.mono Set.subset_union_left
    cases r with
    | none => exact ⟨o1.perm (by simp [Algo.blocks, Algo.fresh]), s1', rfl, by simp⟩
    | some c =>
      refine Act.wp_seq (table_step (P := fun h => TabOK C (thr.of dit rad) rad.num (2 ^ k) h (Ptr.base c)) o1
        (stockhamTable_good rad.pos (fun h => rad.dvd_pow h) (al c rfl) (le_refl _))) ?_
      rintro _ w2 ⟨o2, s2, t⟩
      refine ⟨o2.perm (by simp [Algo.blocks, Algo.fresh]), s1'.trans (s2.mono Set.subset_union_left), rfl, fun _ => ⟨⟨Or.inr ?_, Or.inl rfl, Or.inl rfl⟩, rfl, t⟩⟩
      simp [Algo.blocks, Ptr.base]

theorem mixedSetup_spec {n : Int} (h0 : -2 ^ 31 ≤ n) (h1 : n + 1 < 2 ^ 31) (o : Owned E [b] w) :
    (mixedSetup C thr (Algo.fresh .mixed b) n).wp (AlgoPost C thr E .mixed n.toNat w.heap) w := by
  unfold mixedSetup
  simp only
  refine Act.int_seq (by omega) h1 ?_
  refine Act.wp_seq (sarr_setupI_spec (rest := [b]) o (List.Perm.refl _)) ?_
  rintro r w1 ⟨o1, s1, al⟩
  have s1' : Same E w.heap w1.heap := s1.mono Set.subset_union_left
  cases r with
  | none => exact ⟨o1.perm (by simp [Algo.blocks, Algo.fresh]), s1', rfl, by simp⟩
  | some c =>
    have hg : ∃ h', Good Set.univ (Region (Ptr.base c) (n.toNat + 1))
        (if n < 0 then [] else mixTable C thr n.toNat (Ptr.base c)) w1.heap h' ∧
        (1 ≤ n.toNat → Arr h' (Ptr.base c) (n.toNat + 1) (mixTabVal C n.toNat)) ∧
        ∀ l, l ∉ Region (Ptr.base c) (n.toNat + 1) → h' l = w1.heap l := by
      have hal := (al c rfl).2
      by_cases hn : n < 0
      · rw [if_pos hn]
        exact ⟨_, .nil, fun h => absurd h (by omega), fun _ _ => rfl⟩
      · rw [if_neg hn]
        rw [show (n + 1).toNat = n.toNat + 1 by omega] at hal
        obtain ⟨h', g, ht, hf⟩ := mixTable_good (thr := thr) hal (le_refl _)
        exact ⟨h', g, fun _ => ht, hf⟩
    refine Act.wp_seq (table_step o1 hg) ?_
    rintro _ w2 ⟨o2, s2, t⟩
    refine ⟨o2.perm (by simp [Algo.blocks, Algo.fresh]), s1'.trans (s2.mono Set.subset_union_left), rfl, fun _ => ⟨⟨Or.inr ?_, Or.inl rfl, Or.inl rfl⟩, rfl, t⟩⟩
    simp [Algo.blocks, Ptr.base]


/-- outcome of one step of the six-step `setup2` -/
def SixPost {C : Type} (E : Set Nat) (o : Algo) (h : Heap C) (P : Algo → World C → Prop)
    (r : Algo × Bool) (w' : World C) : Prop :=
  Owned E r.1.blocks w' ∧ Same (E ∪ {b | b ∈ o.blocks}) h w'.heap ∧ r.1.kind = o.kind ∧
    (r.2 = false → P r.1 w')

theorem sixSetup8xm_spec {o : Algo} {n : Nat} (hf : o.weight = none) (ow : Owned E o.blocks w) :
    (sixSetup8xm C thr o n).wp (SixPost E o w.heap fun r w' => ∃ c, r = { o with weight := some c, W := Ptr.base c } ∧
      Arr w'.heap (Ptr.base c) (n / 8) (wr1Val C n)) w := by
  unfold sixSetup8xm
  refine Act.wp_seq (sarr_setup_spec (rest := o.blocks) ow (by rw [hf]; simp)) ?_
  rintro r w1 ⟨o1, s1, al⟩
  cases r with
  | none => exact ⟨o1.perm (by simp only [Algo.blocks, hf] <;> blocks_perm), s1, rfl, by simp⟩
  | some c =>
    refine Act.wp_seq (table_step (b := c) (rest := o.blocks) o1 (initW8xm_good (al c rfl) (le_refl _))) ?_
    rintro _ w2 ⟨o2, s2, t⟩
    exact ⟨o2.perm (by simp only [Algo.blocks, hf] <;> blocks_perm), s1.trans s2, rfl, fun _ => ⟨c, rfl, t⟩⟩

theorem sixSetupNxn_spec {o : Algo} {n : Nat} (h2 : 2 ∣ n) (hf : o.weight = none) (hi : o.index = none)
    (ow : Owned E o.blocks w) :
    (sixSetupNxn C thr o n).wp (SixPost E o w.heap fun r w' => ∃ c j,
      r = { o with weight := some c, W := Ptr.base c, index := some j } ∧
      SixTab C n w'.heap (Ptr.base c)) w := by
  unfold sixSetupNxn
  refine Act.wp_seq (sarr_setup_spec (rest := o.blocks) ow (by rw [hf]; simp)) ?_
  rintro r w1 ⟨o1, s1, al⟩
  cases r with
  | none => exact ⟨o1.perm (by simp only [Algo.blocks, hf] <;> blocks_perm), s1, rfl, by simp⟩
  | some c =>
    refine Act.wp_seq (sarr_setup_spec (rest := c :: o.blocks) o1 (by simp [hi])) ?_
    rintro r w2 ⟨o2, s2, _⟩
    have s2' := s2.mono (E' := E ∪ {b | b ∈ o.blocks}) (by
      rintro b (h | h)
      · exact Or.inl h
      · exact Or.inr (List.mem_cons_of_mem _ h))
    have hal : Alloc w2.heap (Ptr.base c) (4 * sixL n) := by
      intro i hi
      rw [s2.ptr (Or.inr (List.mem_cons_self)) i]
      rw [← nxnLen_eq h2] at hi
      exact al c rfl i hi
    cases r with
    | none => exact ⟨o2.perm (by simp only [Algo.blocks, hf, hi] <;> blocks_perm), s1.trans s2', rfl, by simp⟩
    | some j =>
      refine Act.wp_seq (table_step (b := c) (rest := j :: o.blocks) (o2.perm (by blocks_perm)) (initWnxn_good hal (le_refl _))) ?_
      rintro _ w3 ⟨o3, s3, t⟩
      have s3' := s3.mono (E' := E ∪ {b | b ∈ o.blocks}) (by
        rintro b (h | h)
        · exact Or.inl h
        · exact Or.inr (List.mem_cons_of_mem _ h))
      exact ⟨o3.perm (by simp only [Algo.blocks, hf, hi] <;> blocks_perm), (s1.trans s2').trans s3', rfl,
        fun _ => ⟨c, j, rfl, t⟩⟩

theorem sixSetupMed_spec {o : Algo} {n : Nat} (h2 : 2 ∣ n) (hf : o.med = none) (hi : o.index = none)
    (ow : Owned E o.blocks w) :
    (sixSetupMed C thr o n).wp (SixPost E o w.heap fun r w' => ∃ c j,
      r = { o with med := some c, Wm := Ptr.base c, index := some j } ∧
      SixTab C n w'.heap (Ptr.base c)) w := by
  unfold sixSetupMed
  refine Act.wp_seq (sarr_setup_spec (rest := o.blocks) ow (by rw [hf]; simp)) ?_
  rintro r w1 ⟨o1, s1, al⟩
  cases r with
  | none => exact ⟨o1.perm (by simp only [Algo.blocks, hf] <;> blocks_perm), s1, rfl, by simp⟩
  | some c =>
    refine Act.wp_seq (sarr_setup_spec (rest := c :: o.blocks) o1 (by simp [hi])) ?_
    rintro r w2 ⟨o2, s2, _⟩
    have s2' := s2.mono (E' := E ∪ {b | b ∈ o.blocks}) (by
      rintro b (h | h)
      · exact Or.inl h
      · exact Or.inr (List.mem_cons_of_mem _ h))
    have hal : Alloc w2.heap (Ptr.base c) (4 * sixL n) := by
      intro i hi
      rw [s2.ptr (Or.inr (List.mem_cons_self)) i]
      rw [← nxnLen_eq h2] at hi
      exact al c rfl i hi
    cases r with
    | none => exact ⟨o2.perm (by simp only [Algo.blocks, hf, hi] <;> blocks_perm), s1.trans s2', rfl, by simp⟩
    | some j =>
      refine Act.wp_seq (table_step (b := c) (rest := j :: o.blocks) (o2.perm (by blocks_perm)) (initWnxn_good hal (le_refl _))) ?_
      rintro _ w3 ⟨o3, s3, t⟩
      have s3' := s3.mono (E' := E ∪ {b | b ∈ o.blocks}) (by
        rintro b (h | h)
        · exact Or.inl h
        · exact Or.inr (List.mem_cons_of_mem _ h))
      exact ⟨o3.perm (by simp only [Algo.blocks, hf, hi] <;> blocks_perm), (s1.trans s2').trans s3', rfl,
        fun _ => ⟨c, j, rfl, t⟩⟩

theorem sixSetupW_spec {o : Algo} {n k : Nat} (hn : n = 2 ^ k) (hf : o.weight = none) (ow : Owned E o.blocks w) :
    (sixSetupW C thr o n).wp (SixPost E o w.heap fun r w' =>
      (n ≤ 8 ∧ r = { o with W := Ptr.null } ∨ ∃ c, r = { o with weight := some c, W := Ptr.base c }) ∧
      SubTab C n w'.heap r.W) w := by
  unfold sixSetupW
  split
  · rename_i h8
    refine ⟨ow, Same.refl _ _, rfl, fun _ => ⟨Or.inl ⟨h8, rfl⟩, ?_⟩⟩
    intro hlt; exact absurd hlt (by omega)
  · rename_i h8
    refine Act.wp_seq (sarr_setup_spec (rest := o.blocks) ow (by rw [hf]; simp)) ?_
    rintro r w1 ⟨o1, s1, al⟩
    cases r with
    | none => exact ⟨o1.perm (by simp only [Algo.blocks, hf] <;> blocks_perm), s1, rfl, by simp⟩
    | some c =>
      have hg := initSub_good (C := C) (R := Set.univ) (D := Region (Ptr.base c) (subLen n)) (thr := thr) (Ws := Ptr.base c) hn
        (by rw [← subLen_eq, if_neg h8]; exact al c rfl) (le_refl _)
      unfold initSub at hg
      rw [if_neg h8] at hg
      refine Act.wp_seq (table_step (b := c) (rest := o.blocks) o1 hg) ?_
      rintro _ w2 ⟨o2, s2, t⟩
      exact ⟨o2.perm (by simp only [Algo.blocks, hf] <;> blocks_perm), s1.trans s2, rfl, fun _ => ⟨Or.inr ⟨c, rfl⟩, t⟩⟩

theorem sixSetupSub_spec {o : Algo} {n k : Nat} (hn : n = 2 ^ k) (hf : o.sub = none) (ow : Owned E o.blocks w) :
    (sixSetupSub C thr o n).wp (SixPost E o w.heap fun r w' =>
      (n ≤ 8 ∧ r = { o with Ws := Ptr.null } ∨ ∃ c, r = { o with sub := some c, Ws := Ptr.base c }) ∧
      SubTab C n w'.heap r.Ws) w := by
  unfold sixSetupSub
  split
  · rename_i h8
    refine ⟨ow, Same.refl _ _, rfl, fun _ => ⟨Or.inl ⟨h8, rfl⟩, ?_⟩⟩
    intro hlt; exact absurd hlt (by omega)
  · rename_i h8
    refine Act.wp_seq (sarr_setup_spec (rest := o.blocks) ow (by rw [hf]; simp)) ?_
    rintro r w1 ⟨o1, s1, al⟩
    cases r with
    | none => exact ⟨o1.perm (by simp only [Algo.blocks, hf] <;> blocks_perm), s1, rfl, by simp⟩
    | some c =>
      have hg := initSub_good (C := C) (R := Set.univ) (D := Region (Ptr.base c) (subLen n)) (thr := thr) (Ws := Ptr.base c) hn
        (by rw [← subLen_eq, if_neg h8]; exact al c rfl) (le_refl _)
      unfold initSub at hg
      rw [if_neg h8] at hg
      refine Act.wp_seq (table_step (b := c) (rest := o.blocks) o1 hg) ?_
      rintro _ w2 ⟨o2, s2, t⟩
      exact ⟨o2.perm (by simp only [Algo.blocks, hf] <;> blocks_perm), s1.trans s2, rfl, fun _ => ⟨Or.inr ⟨c, rfl⟩, t⟩⟩

theorem andThen_spec {C O : Type} {m : Act C (O × Bool)} {f : O → Act C (O × Bool)} {w : World C}
    {P Q : O × Bool → World C → Prop} (h : m.wp P w)
    (ht : ∀ o w', P (o, true) w' → Q (o, true) w')
    (hf : ∀ o w', P (o, false) w' → (f o).wp Q w') : (andThen m f).wp Q w := by
  unfold andThen
  refine Act.wp_seq h ?_
  rintro ⟨o, b⟩ w' hp
  cases b
  · exact hf o w' hp
  · exact ht o w' hp

theorem sixSetup2_spec {k : Nat} (hk : 1 ≤ k) (o : Owned E [b] w) :
    (sixSetup2 C thr (Algo.fresh .six b) k).wp (AlgoPost C thr E .six (2 ^ k) w.heap) w := by
  unfold sixSetup2
  simp only
  have mon : ∀ {h h' : Heap C} {o : Algo}, Same (E ∪ {b | b ∈ o.blocks}) h h' → Same E h h' :=
    fun s => s.mono Set.subset_union_left
  split
  · rename_i h5
    refine Act.wp_mono (sixSetupW_spec (k := k) rfl rfl o) ?_
    rintro ⟨r, t⟩ w1 ⟨o1, s1, hk1, h1⟩
    refine ⟨o1, mon s1, hk1, fun ht => ?_⟩
    obtain ⟨h1, h2⟩ := h1 ht
    rcases h1 with ⟨_, rfl⟩ | ⟨c, rfl⟩
    · refine ⟨⟨Or.inl rfl, Or.inl rfl, Or.inl rfl⟩, rfl, ?_⟩
      unfold SixReady; rw [if_pos h5]; exact h2
    · refine ⟨⟨Or.inr (by simp [Algo.blocks, Ptr.base]), Or.inl rfl, Or.inl rfl⟩, rfl, ?_⟩
      unfold SixReady; rw [if_pos h5]; exact h2
  rename_i h5
  split
  · rename_i hodd
    have h2 : 2 ∣ 2 ^ (k / 2 - 1) := dvd_pow_self 2 (by omega)
    refine andThen_spec (P := SixPost E (Algo.fresh .six b) w.heap fun r w' => ∃ c d j,
        r = { Algo.fresh .six b with logN := k, N := 2 ^ k, weight := some c, W := Ptr.base c, med := some d, Wm := Ptr.base d, index := some j } ∧
        Arr w'.heap (Ptr.base c) (2 ^ k / 8) (wr1Val C (2 ^ k)) ∧
        SixTab C (2 ^ (k / 2 - 1)) w'.heap (Ptr.base d))
      (andThen_spec (sixSetup8xm_spec rfl o) ?_ ?_) ?_ ?_
    · rintro r w1 ⟨o1, s1, hk1, _⟩
      exact ⟨o1, s1, hk1, by simp⟩
    · rintro r w1 ⟨o1, s1, hk1, h1⟩
      obtain ⟨c, rfl, a⟩ := h1 rfl
      refine Act.wp_mono (sixSetupMed_spec h2 rfl rfl o1) ?_
      rintro ⟨r, t⟩ w2 ⟨o2, s2, hk2, h2⟩
      have s2' := s2.mono (E' := E ∪ {b' | b' ∈ [b]}) (by
        rintro b' (h | h)
        · exact Or.inl h
        · right
          obtain rfl : b' = b := by simpa using h
          simp [Algo.blocks, Algo.fresh])
      refine ⟨o2, s1.trans s2', hk2, fun ht => ?_⟩
      obtain ⟨d, j, rfl, t⟩ := h2 ht
      refine ⟨c, d, j, rfl, fun i hi => ?_, t⟩
      rw [s2.ptr (p := Ptr.base c) (Or.inr (by simp [Algo.blocks, Ptr.base])) i]; exact a i hi
    · rintro r w1 ⟨o1, s1, hk1, _⟩
      exact ⟨o1, mon s1, hk1, by simp⟩
    · rintro r w1 ⟨o1, s1, hk1, h1⟩
      obtain ⟨c, d, j, rfl, a, t⟩ := h1 rfl
      refine Act.wp_mono (sixSetupSub_spec (k := k / 2 - 1) rfl rfl o1) ?_
      rintro ⟨r, tt⟩ w2 ⟨o2, s2, hk2, h2⟩
      refine ⟨o2, (mon s1).trans (mon s2), hk2, fun ht => ?_⟩
      obtain ⟨h2, h3⟩ := h2 ht
      have ha : Arr w2.heap (Ptr.base c) (2 ^ k / 8) (wr1Val C (2 ^ k)) := by
        intro i hi
        rw [s2.ptr (p := Ptr.base c) (Or.inr (by simp [Algo.blocks, Ptr.base])) i]; exact a i hi
      have hst : SixTab C (2 ^ (k / 2 - 1)) w2.heap (Ptr.base d) :=
        t.frame fun i _ => s2.ptr (p := Ptr.base d) (Or.inr (by simp [Algo.blocks, Ptr.base])) i
      rcases h2 with ⟨_, rfl⟩ | ⟨e, rfl⟩
      · refine ⟨⟨Or.inr (by simp [Algo.blocks, Ptr.base]), Or.inr (by simp [Algo.blocks, Ptr.base]), Or.inl rfl⟩, rfl, ?_⟩
        unfold SixReady; rw [if_neg h5, if_pos hodd]; exact ⟨ha, hst, h3⟩
      · refine ⟨⟨Or.inr (by simp [Algo.blocks, Ptr.base]), Or.inr (by simp [Algo.blocks, Ptr.base]), Or.inr (by simp [Algo.blocks, Ptr.base])⟩, rfl, ?_⟩
        unfold SixReady; rw [if_neg h5, if_pos hodd]; exact ⟨ha, hst, h3⟩
  · rename_i hodd
    have h2 : 2 ∣ 2 ^ (k / 2) := dvd_pow_self 2 (by omega)
    refine andThen_spec (sixSetupNxn_spec h2 rfl rfl o) ?_ ?_
    · rintro r w1 ⟨o1, s1, hk1, _⟩
      exact ⟨o1, mon s1, hk1, by simp⟩
    · rintro r w1 ⟨o1, s1, hk1, h1⟩
      obtain ⟨c, j, rfl, t⟩ := h1 rfl
      refine Act.wp_mono (sixSetupSub_spec (k := k / 2) rfl rfl o1) ?_
      rintro ⟨r, tt⟩ w2 ⟨o2, s2, hk2, h2⟩
      refine ⟨o2, (mon s1).trans (mon s2), hk2, fun ht => ?_⟩
      obtain ⟨h2, h3⟩ := h2 ht
      have hst : SixTab C (2 ^ (k / 2)) w2.heap (Ptr.base c) :=
        t.frame fun i _ => s2.ptr (p := Ptr.base c) (Or.inr (by simp [Algo.blocks, Ptr.base])) i
      rcases h2 with ⟨_, rfl⟩ | ⟨e, rfl⟩
      · refine ⟨⟨Or.inr (by simp [Algo.blocks, Ptr.base]), Or.inl rfl, Or.inl rfl⟩, rfl, ?_⟩
        unfold SixReady; rw [if_neg h5, if_neg hodd]; exact ⟨hst, h3⟩
      · refine ⟨⟨Or.inr (by simp [Algo.blocks, Ptr.base]), Or.inl rfl, Or.inr (by simp [Algo.blocks, Ptr.base])⟩, rfl, ?_⟩
        unfold SixReady; rw [if_neg h5, if_neg hodd]; exact ⟨hst, h3⟩

end algo

/-! ### lengths and dispatch -/

theorem logLoop_pow (k : Nat) : logLoop (2 ^ k) = k := by
  induction k with
  | zero => rw [logLoop]; simp
  | succ k ih =>
    have h1 : 1 ≤ 2 ^ k := Nat.one_le_two_pow
    rw [logLoop, dif_pos (by rw [pow_succ]; omega), pow_succ, Nat.mul_div_cancel _ (by omega), ih]

theorem logOf_some {n k : Nat} (h : logOf n = some k) : n = 2 ^ k := by
  unfold logOf at h
  split at h
  · simp at h
  · rename_i hn
    push Not at hn
    rw [← Option.some.inj h]; exact hn

theorem logOf_pow (k : Nat) : logOf (2 ^ k) = some k := by
  unfold logOf
  rw [logLoop_pow]; simp

theorem logOf_none {n : Nat} (h : ∀ k, n ≠ 2 ^ k) : logOf n = none := by
  unfold logOf
  rw [if_pos (h _)]

theorem dispatch_stock {o : Option Nat} {dit : Bool} {rad : Radix}
    (h : dispatch o = some (.stock dit rad)) : ∃ k, o = some k ∧ 1 ≤ k ∧ k ≤ 24 := by
  unfold dispatch at h
  split at h <;> first | exact ⟨_, rfl, by omega, by omega⟩ | simp at h

theorem dispatch_six {o : Option Nat} (h : dispatch o = some .six) :
    ∃ k, o = some k ∧ 16 ≤ k ∧ k ≤ 24 := by
  unfold dispatch at h
  split at h <;> first | exact ⟨_, rfl, by omega, by omega⟩ | simp at h

theorem dispatch_none {o : Option Nat} (h : dispatch o = none) : o = some 0 := by
  unfold dispatch at h
  split at h <;> first | rfl | simp at h

/-! ### `FFT0` -/

/-- a successfully set up `FFT0` -/
structure FFT0.Ready (C : Type) [CArith F C] (thr : Thr) (o : FFT0) (n : Nat) (h : Heap C) : Prop where
  N : o.N = n
  obj : match dispatch (logOf n) with
    | none => o.obj = none
    | some kind => ∃ a, o.obj = some a ∧ a.kind = kind ∧ a.PtrOK ∧ a.Ready C thr n h

theorem FFT0.Ready.frame {thr : Thr} {o : FFT0} {n : Nat} {h h' : Heap C} (r : o.Ready C thr n h)
    (s : Same (insert 0 {b | b ∈ o.blocks}) h h') : o.Ready C thr n h' := by
  refine ⟨r.N, ?_⟩
  have := r.obj
  split
  · rename_i hd; rw [hd] at this; exact this
  · rename_i kind hd
    rw [hd] at this
    obtain ⟨a, ha, hk, hp, hr⟩ := this
    refine ⟨a, ha, hk, hp, hr.frame hp (s.mono ?_)⟩
    rintro b (hb | hb)
    · exact Or.inl hb
    · right; show b ∈ o.blocks; rw [FFT0.blocks, ha]; exact hb

theorem Algo.delete_spec {E : Set Nat} {w : World C} {o : Algo} {bs rest : List Nat} (ow : Owned E bs w)
    (hp : bs.Perm (o.blocks ++ rest)) :
    (o.delete C).wp (fun _ w' => Owned E rest w' ∧ Same (E ∪ {b | b ∈ rest}) w.heap w'.heap) w := by
  unfold Algo.delete
  have ow := ow.perm hp
  have mon : ∀ (as : List Nat) {h h' : Heap C}, Same (E ∪ {b | b ∈ as ++ rest}) h h' →
      Same (E ∪ {b | b ∈ rest}) h h' := fun as h h' s => s.mono (by
    rintro b (h | h)
    · exact Or.inl h
    · exact Or.inr (List.mem_append_right _ h))
  refine Act.wp_seq (release_spec (rest := o.sub.toList ++ (o.med.toList ++ (o.weight.toList ++ [o.self])) ++ rest) ow
    (by simp only [Algo.blocks] <;> blocks_perm)) ?_
  rintro _ w1 ⟨o1, s1⟩
  refine Act.wp_seq (release_spec (rest := (o.med.toList ++ (o.weight.toList ++ [o.self])) ++ rest) o1
    (by blocks_perm)) ?_
  rintro _ w2 ⟨o2, s2⟩
  refine Act.wp_seq (release_spec (rest := (o.weight.toList ++ [o.self]) ++ rest) o2
    (by blocks_perm)) ?_
  rintro _ w3 ⟨o3, s3⟩
  refine Act.wp_seq (release_spec (rest := [o.self] ++ rest) o3 (by blocks_perm)) ?_
  rintro _ w4 ⟨o4, s4⟩
  have := release_spec (a := some o.self) (rest := rest) o4 (by blocks_perm)
  refine Act.wp_mono this ?_
  rintro _ w5 ⟨o5, s5⟩
  exact ⟨o5, (mon _ s1).trans ((mon _ s2).trans ((mon _ s3).trans ((mon _ s4).trans s5)))⟩

theorem FFT0.reset_spec {E : Set Nat} {w : World C} {o : FFT0} {bs rest : List Nat} (ow : Owned E bs w)
    (hp : bs.Perm (o.blocks ++ rest)) :
    (o.reset C).wp (fun _ w' => Owned E rest w' ∧ Same (E ∪ {b | b ∈ rest}) w.heap w'.heap) w := by
  unfold FFT0.reset
  split
  · rename_i ho
    rw [FFT0.blocks, ho] at hp
    exact ⟨ow.perm (by simpa using hp), Same.refl _ _⟩
  · rename_i a ho
    rw [FFT0.blocks, ho] at hp
    exact a.delete_spec ow hp

/-- the algorithm can be used for length `n`: the power-of-two classes handle `2^1 … 2^24` -/
def AlgoKind.Usable (kind : AlgoKind) (n : Nat) : Prop :=
  match kind with
  | .mixed => True
  | _ => ∃ k, n = 2 ^ k ∧ 1 ≤ k ∧ k ≤ 24

theorem AlgoKind.usable_of_dispatch {kind : AlgoKind} {n : Nat} (hd : dispatch (logOf n) = some kind) :
    kind.Usable n := by
  cases kind with
  | stock dit rad =>
    obtain ⟨k, h1, h2, h3⟩ := dispatch_stock hd
    exact ⟨k, logOf_some h1, h2, h3⟩
  | six =>
    obtain ⟨k, h1, h2, h3⟩ := dispatch_six hd
    exact ⟨k, logOf_some h1, by omega, h3⟩
  | mixed => trivial

theorem Algo.setup_spec {thr : Thr} {E : Set Nat} {w : World C} {b : Nat} {n : Int} {kind : AlgoKind}
    (h0 : -2 ^ 31 ≤ n) (h1 : n + 1 < 2 ^ 31) (hd : kind.Usable n.toNat) (o : Owned E [b] w) :
    ((Algo.fresh kind b).setup C thr n (logOf n.toNat)).wp (AlgoPost C thr E kind n.toNat w.heap) w := by
  cases kind with
  | stock dit rad =>
    obtain ⟨k, hk, _, _⟩ := hd
    have := stockSetup2_spec (C := C) (thr := thr) (dit := dit) (rad := rad) (k := k) o
    rw [hk, logOf_pow]; exact this
  | six =>
    obtain ⟨k, hk, h1, _⟩ := hd
    have := sixSetup2_spec (C := C) (thr := thr) (k := k) (by omega) o
    rw [hk, logOf_pow]; exact this
  | mixed => exact mixedSetup_spec h0 h1 o

theorem FFT0.setup_spec {thr : Thr} {E : Set Nat} {w : World C} {o : FFT0} {n : Int} {bs rest : List Nat}
    (h0 : -2 ^ 31 ≤ n) (h1 : n + 1 < 2 ^ 31) (ow : Owned E bs w) (hp : bs.Perm (o.blocks ++ rest)) :
    (o.setup C thr n).wp (fun r w' => Owned E (r.1.blocks ++ rest) w' ∧
      Same (E ∪ {b | b ∈ rest}) w.heap w'.heap ∧ (r.2 = true → r.1.obj = none) ∧
      (r.2 = false → r.1.Ready C thr n.toNat w'.heap)) w := by
  unfold FFT0.setup
  refine Act.wp_seq (o.reset_spec ow hp) ?_
  rintro _ w1 ⟨o1, s1⟩
  simp only
  split
  · rename_i hd
    refine ⟨by simpa [FFT0.blocks] using o1, s1, by simp, fun _ => ⟨rfl, ?_⟩⟩
    rw [hd]
  · rename_i kind hd
    refine malloc_spec (n := 0) o1 fun r w2 o2 s2 _ => ?_
    cases r with
    | none => exact ⟨by simpa [FFT0.blocks] using o2, s1.trans s2, by simp, by simp⟩
    | some b =>
      have o2' : Owned (E ∪ {b | b ∈ rest}) [b] w2 := Owned.split o2
      refine Act.wp_seq (Algo.setup_spec h0 h1 (AlgoKind.usable_of_dispatch hd) o2') ?_
      rintro ⟨a, t⟩ w3 ⟨o3, s3, hk, hr⟩
      have o3' : Owned E (a.blocks ++ rest) w3 := o3.join o1.nodup o1.disj
      cases t with
      | true =>
        refine Act.wp_seq (a.delete_spec o3' (List.Perm.refl _)) ?_
        rintro _ w4 ⟨o4, s4⟩
        exact ⟨by simpa [FFT0.blocks] using o4, ((s1.trans s2).trans s3).trans s4, by simp, by simp⟩
      | false =>
        refine ⟨by simpa [FFT0.blocks] using o3', (s1.trans s2).trans s3, by simp, fun _ => ⟨rfl, ?_⟩⟩
        rw [hd]
        exact ⟨a, rfl, hk, hr rfl⟩

end OTFFT
