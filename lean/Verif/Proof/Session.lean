/-
Histories of `setup` and transform calls.
-/
import Verif.Model.Api
import Verif.Spec.History
import Verif.Proof.Engine
import Mathlib.NumberTheory.LucasLehmer

namespace OTFFT

variable {C : Type}

/-- allocated cells of the blocks `E` stay allocated, initialised ones stay initialised -/
def KeepsInit (E : Set Nat) (h h' : Heap C) : Prop :=
  ∀ l : Loc, l.1 ∈ E → (h l ≠ none → h' l ≠ none) ∧ ((∃ v, h l = some (some v)) → ∃ v, h' l = some (some v))

theorem KeepsInit.refl (E : Set Nat) (h : Heap C) : KeepsInit E h h := fun _ _ => ⟨id, id⟩
theorem KeepsInit.trans {E : Set Nat} {h1 h2 h3 : Heap C} (a : KeepsInit E h1 h2)
    (b : KeepsInit E h2 h3) : KeepsInit E h1 h3 := fun l hl =>
  ⟨fun h => (b l hl).1 ((a l hl).1 h), fun h => (b l hl).2 ((a l hl).2 h)⟩
theorem Same.keeps {E : Set Nat} {h h' : Heap C} (s : Same E h h') : KeepsInit E h h' :=
  fun l hl => by rw [s l hl]; exact ⟨id, id⟩

theorem TrN.init {α : Type} {R D : Set Loc} {n} {p : Prog C α} {h a h'} (t : TrN R D n p h a h') :
    ∀ l, (∃ v, h l = some (some v)) → ∃ v, h' l = some (some v) := by
  induction t with
  | ret => intro l h; exact h
  | load _ _ _ ih => exact ih
  | @store n l v k h a h' hl hv _ ih =>
    intro l' hn
    apply ih
    by_cases e : l' = l
    · subst e; exact ⟨v, Heap.set_same _ _ _⟩
    · rw [Heap.set_ne _ _ e]; exact hn

theorem PhaseGood.init {R D : Set Loc} {ts : List (Task C)} {h h'} (g : PhaseGood R D ts h h') :
    ∀ l, (∃ v, h l = some (some v)) → ∃ v, h' l = some (some v) := by
  obtain ⟨Rs, Ds, hf, a, b, c, d, e⟩ := g
  intro l hl
  by_cases hm : ∀ i, i < ts.length → l ∉ Ds i
  · rw [e l hm]; exact hl
  · push Not at hm
    obtain ⟨i, hi, hm⟩ := hm
    rw [d i hi l hm]
    obtain ⟨n, t⟩ := a i ts[i] (by simp [hi])
    exact t.init l hl

/-- code that is fine keeps initialised cells initialised -/
theorem Good.init {R D : Set Loc} {c : Code C} {h h'} (g : Good R D c h h') :
    ∀ l, (∃ v, h l = some (some v)) → ∃ v, h' l = some (some v) := by
  induction g with
  | nil => intro l h; exact h
  | cons p _ ih => intro l hl; exact ih l (p.init l hl)

theorem Good.keeps {R D : Set Loc} {c : Code C} {h h'} (g : Good R D c h h') (E : Set Nat) :
    KeepsInit E h h' := fun l _ => ⟨g.alloc l, g.init l⟩

theorem Filled.arr {h : Heap C} {p : Ptr} {n : Nat} (f : Filled h p n) [Inhabited C] : ∃ v, Arr h p n v := by
  classical
  exact ⟨fun i => if hi : i < n then (f i hi).choose else default, fun i hi => by
    simp only [hi, dif_pos]; exact (f i hi).choose_spec⟩

theorem Arr.filled {h : Heap C} {p : Ptr} {n : Nat} {v : Nat → C} (a : Arr h p n v) : Filled h p n :=
  fun i hi => ⟨_, a i hi⟩

theorem Filled.keeps {E : Set Nat} {h h' : Heap C} {p : Ptr} {n : Nat} (f : Filled h p n)
    (k : KeepsInit E h h') (hp : p.buf ∈ E) : Filled h' p n := fun i hi => (k _ hp).2 (f i hi)

/-- 2^31 - 1 is a prime, so that no length with small prime factors is too large for `setup` -/
theorem ValidLen.intLen {n : Nat} (h : ValidLen n) : intLen n := by
  have h1 := h.int
  have h2 : n ≠ 2147483647 := by
    rintro rfl
    have hp : Nat.Prime 2147483647 := by
      have : (mersenne 31).Prime := lucas_lehmer_sufficiency _ (by norm_num) (by norm_num)
      simpa [mersenne] using this
    have := h.small 2147483647 hp (dvd_refl _)
    omega
  exact ⟨by omega, by omega⟩

theorem RealLen.intLen {n : Nat} (h : RealLen n) : intLen n := by
  rcases h with rfl | ⟨m, rfl, _, h⟩
  · exact ⟨by omega, by omega⟩
  · exact ⟨by omega, by omega⟩

/-- What has to be shown about a class. -/
structure ClsSpec (X : Cls C) where
  blocks : X.Obj → List Nat
  /-- the object is set up for length `n` -/
  Ready : X.Obj → Nat → Heap C → Prop
  /-- lengths that may be passed to `setup` -/
  SetupOK : Int → Prop
  /-- the arguments of a call are fine for an object of length `n` -/
  Valid : Nat → X.Call → Set Nat → Heap C → Prop
  valid_keeps : ∀ {n c E h h'}, Valid n c E h → KeepsInit E h h' → Valid n c E h'
  create_spec : ∀ {E : Set Nat} {w : World C} (n : Int), SetupOK n → Owned E [] w →
    (X.create n).wp (fun r w' => Same E w.heap w'.heap ∧ match r with
      | none => Owned E [] w'
      | some o => Owned E (blocks o) w' ∧ Ready o n.toNat w'.heap) w
  setup_spec : ∀ {E : Set Nat} {w : World C} (o : X.Obj) (n : Int), SetupOK n → Owned E (blocks o) w →
    (X.setup o n).wp (fun r w' => Owned E (blocks r.1) w' ∧ Same E w.heap w'.heap ∧
      (r.2 = false → Ready r.1 n.toNat w'.heap)) w
  call_spec : ∀ {E : Set Nat} {w : World C} {o : X.Obj} {n : Nat} {c : X.Call}, Owned E (blocks o) w →
    Ready o n w.heap → Valid n c E w.heap →
    (Act.exec (X.call o c)).wp (fun _ w' => Owned E (blocks o) w' ∧ KeepsInit E w.heap w'.heap ∧
      Ready o n w'.heap) w
  ready_frame : ∀ {o : X.Obj} {n : Nat} {h h' : Heap C}, Ready o n h →
    Same (insert 0 {b | b ∈ blocks o}) h h' → Ready o n h'
  destroy_spec : ∀ {E : Set Nat} {w : World C} (o : X.Obj), Owned E (blocks o) w →
    (X.destroy o).wp (fun _ w' => Owned E [] w' ∧ Same E w.heap w'.heap) w

/-- every call of the program is valid for the length the object has at that point -/
def ClsSpec.ValidOps {X : Cls C} (S : ClsSpec X) (E : Set Nat) (h : Heap C) : Nat → List (Op C X.Call) → Prop
  | _, [] => True
  | _, .setup n :: ops => S.SetupOK n ∧ S.ValidOps E h n.toNat ops
  | m, .call c :: ops => S.Valid m c E h ∧ S.ValidOps E h m ops
  | m, .store p _ :: ops => (p.buf ∈ E ∧ h p.loc ≠ none) ∧ S.ValidOps E h m ops

theorem ClsSpec.ValidOps.keeps {X : Cls C} {S : ClsSpec X} {E : Set Nat} {h h' : Heap C}
    (k : KeepsInit E h h') (ops : List (Op C X.Call)) : ∀ m, S.ValidOps E h m ops → S.ValidOps E h' m ops := by
  induction ops with
  | nil => intro _ _; trivial
  | cons op ops ih =>
    intro m v
    cases op with
    | setup n => exact ⟨v.1, ih _ v.2⟩
    | call c => exact ⟨S.valid_keeps v.1 k, ih m v.2⟩
    | store p u => exact ⟨⟨v.1.1, (k p.loc v.1.1).1 v.1.2⟩, ih m v.2⟩

/-- A program of valid operations: whatever `malloc` does and however threads are scheduled there is
no undefined behaviour, the object keeps owning its blocks, and if the last `setup` did not throw the
object is ready for the last length. -/
theorem ClsSpec.session {X : Cls C} (S : ClsSpec X) {E : Set Nat} (ops : List (Op C X.Call)) :
    ∀ {w : World C} (o : X.Obj) (ok : Bool) (m : Nat), Owned E (S.blocks o) w →
      (ok = true → S.Ready o m w.heap) → S.ValidOps E w.heap m ops →
      (X.session o ok ops).wp (fun r w' => Owned E (S.blocks r.1) w' ∧ KeepsInit E w.heap w'.heap ∧
        (r.2 = true → S.Ready r.1 (lastLen m ops) w'.heap)) w := by
  induction ops with
  | nil => intro w o ok m ho hr hv; exact ⟨ho, .refl _ _, hr⟩
  | cons op ops ih =>
    intro w o ok m ho hr hv
    cases op with
    | setup n =>
      refine Act.wp_seq (S.setup_spec o n hv.1 ho) ?_
      rintro ⟨o', threw⟩ w' ⟨h1, h2, h3⟩
      refine Act.wp_mono (ih o' (!threw) n.toNat h1 (fun ht => h3 (by simpa using ht))
        (ClsSpec.ValidOps.keeps h2.keeps _ _ hv.2)) ?_
      rintro r w'' ⟨a, b, c⟩
      exact ⟨a, h2.keeps.trans b, c⟩
    | call c =>
      cases ok with
      | false =>
        exact ih o false m ho hr hv.2
      | true =>
        refine Act.wp_seq (m := Act.exec (X.call o c)) (S.call_spec ho (hr rfl) hv.1) ?_
        rintro _ w' ⟨h1, h2, h3⟩
        refine Act.wp_mono (ih o true m h1 (fun _ => h3) (ClsSpec.ValidOps.keeps h2 _ _ hv.2)) ?_
        rintro r w'' ⟨a, b, c⟩
        exact ⟨a, h2.trans b, c⟩
    | store p u =>
      have g : Good Set.univ {p.loc} [[.store p.loc u (.ret ())]] w.heap (w.heap.set p.loc u) :=
        Good.single (.store rfl hv.1.2 .ret)
      have hb : ∀ l : Loc, l ≠ p.loc → (w.heap.set p.loc u) l = w.heap l := fun l h => Heap.set_ne _ _ h
      refine Act.wp_seq (Act.wp_exec (Q := fun _ w' => w' = ⟨w.heap.set p.loc u, w.live⟩) g rfl) ?_
      rintro _ w' rfl
      have k : KeepsInit E w.heap (w.heap.set p.loc u) := by
        intro l hl
        by_cases e : l = p.loc
        · subst e; simp
        · rw [hb l e]; exact ⟨id, id⟩
      refine Act.wp_mono (ih o ok m (ho.ran g) (fun h => S.ready_frame (hr h) ?_)
        (ClsSpec.ValidOps.keeps k _ _ hv.2)) ?_
      · intro l hl
        refine hb l ?_
        rintro rfl
        rcases hl with h | h
        · have : p.buf ≠ 0 := by
            intro h0
            exact hv.1.2 (ho.wf.dead _ (by show p.buf ∉ _; rw [h0]; exact ho.wf.null))
          exact this h
        · exact ho.disj _ h hv.1.1
      · rintro r w'' ⟨a, b, c⟩
        exact ⟨a, k.trans b, c⟩

/-- Construction and use. -/
theorem ClsSpec.use {X : Cls C} (S : ClsSpec X) {E : Set Nat} {w : World C} (n : Int)
    (ops : List (Op C X.Call)) (hn : S.SetupOK n) (ho : Owned E [] w) (hv : S.ValidOps E w.heap n.toNat ops) :
    (X.use n ops).wp (fun r w' => KeepsInit E w.heap w'.heap ∧ match r with
      | none => Owned E [] w'
      | some s => Owned E (S.blocks s.1) w' ∧ (s.2 = true → S.Ready s.1 (lastLen n.toNat ops) w'.heap)) w := by
  refine Act.wp_seq (S.create_spec n hn ho) ?_
  rintro r w' ⟨h1, h2⟩
  cases r with
  | none => exact ⟨h1.keeps, h2⟩
  | some o =>
    refine Act.wp_seq (S.session ops o true n.toNat h2.1 (fun _ => h2.2)
      (ClsSpec.ValidOps.keeps h1.keeps _ _ hv)) ?_
    rintro s w'' ⟨a, b, c⟩
    exact ⟨h1.keeps.trans b, a, c⟩

/-- Whole lifetime: afterwards exactly the caller's blocks are allocated. -/
theorem ClsSpec.lifetime {X : Cls C} (S : ClsSpec X) {E : Set Nat} {w : World C} (n : Int)
    (ops : List (Op C X.Call)) (hn : S.SetupOK n) (ho : Owned E [] w) (hv : S.ValidOps E w.heap n.toNat ops) :
    (X.lifetime n ops).wp (fun _ w' => Owned E [] w' ∧ KeepsInit E w.heap w'.heap) w := by
  refine Act.wp_seq (S.use n ops hn ho hv) ?_
  rintro r w' ⟨h1, h2⟩
  cases r with
  | none => exact ⟨h2, h1⟩
  | some s =>
    refine Act.wp_seq (S.destroy_spec s.1 h2.1) ?_
    rintro _ w3 ⟨d, e⟩
    exact ⟨d, h1.trans e.keeps⟩

end OTFFT
