/-
C41: many objects of all classes in one client program. All theorems hold for any arithmetic.
-/
import Verif.Proof.Pool
import Verif.Props.Raw
import Verif.Proof.Overflow
import Verif.Proof.Lengths

namespace OTFFT

variable {F C : Type} [DArith F] [CArith F C] [Inhabited C] {thr : Thr}

omit [Inhabited C] in
theorem Vars.known_empty : (Vars.empty : Vars C thr).known = fun _ => none := rfl

theorem SharedInv.none (E0 E : Set Nat) (h : Heap C) : SharedInv (Vars.empty : Vars C thr) E0 E h :=
  ⟨fun _ _ h => (by cases h), fun _ _ h => (by cases h), fun _ _ h => (by cases h)⟩

/-- a client program started without any object -/
theorem Client.Valid.spec {p : Client C thr} {P Rd : Set Loc} {w0 : World C} (h : p.Valid P Rd w0) :
    (p.run Vars.empty Vars.empty).wp (fun σ w => PoolInv w0.live σ w ∧ Tells (P ∪ Rd) w0.heap w.heap ∧
      ∀ l : Loc, l.1 ∈ w0.live → l ∉ P → w.heap l = w0.heap l) w0 :=
  Act.wpC_wp (Client.run_spec (S := ∅) subset_rfl h.cells (fun _ h => h.elim) (fun _ _ h => h) p Vars.empty w0 w0.heap
    (PoolInv.empty h.wf) (SharedInv.none _ _ _) (Tells.refl _ _) h.ok)

theorem AfterClient.inv {w0 : World C} {σ : Vars C thr} {w : World C} (h : AfterClient w0 σ w) : PoolInv w0.live σ w := by
  obtain ⟨p, P, Rd, v, r⟩ := h
  exact (Act.wp_runs v.spec r).1

omit [Inhabited C] in
theorem Kind.create_noFail (k : Kind) (n : Int) (hn : 0 ≤ n) : ((k.cls C thr).create n).NoFail fun r => r.isSome = true := by
  cases k with
  | complex => exact FFT.create_noFail hn
  | real => exact RFFT.create_noFail (by omega)
  | dct => exact DCT.create_noFail hn
  | bluestein => exact Bluestein.create_noFail
  | fft0 => exact FFT0.create_noFail (by omega)
  | dct0 => exact DCT0.create_noFail (by omega)

omit [Inhabited C] in
theorem Kind.setup_noFail (k : Kind) (o : (k.cls C thr).Obj) (n : Int) (hn : 0 ≤ n) :
    ((k.cls C thr).setup o n).NoFail fun r => r.2 = false := by
  cases k with
  | complex => exact FFT.setup_noFail hn
  | real => exact RFFT.setup_noFail (by omega)
  | dct => exact DCT.setup_noFail hn
  | bluestein => exact Bluestein.setup_noFail
  | fft0 => exact FFT0.setup_noFail (by omega)
  | dct0 => exact DCT0.setup_noFail (by omega)

omit [Inhabited C] in
theorem Kind.destroy_noFail (k : Kind) (o : (k.cls C thr).Obj) : ((k.cls C thr).destroy o).NoFail fun _ => True := by
  cases k with
  | complex => exact FFT.destroy_noFail trivial
  | real => exact RFFT.destroy_noFail trivial
  | dct => exact DCT.destroy_noFail trivial
  | bluestein => exact Bluestein.destroy_noFail trivial
  | fft0 => exact FFT0.reset_noFail trivial
  | dct0 => exact DCT0.destroy_noFail trivial

theorem Client.noFail {P Rd : Set Loc} (sh : Vars C thr) (p : Client C thr) : ∀ (σ : Vars C thr) (h : Heap C),
    p.OK P Rd sh.known σ.known h → p.lenNat → (p.run sh σ).NoFail fun σ' => σ'.known = p.noThrow σ.known := by
  induction p with
  | done => intro σ h _ _; exact rfl
  | new s k n ok threw ih1 ih2 =>
    rintro σ h ⟨h1, h2, h3, h4⟩ ⟨hn, hl⟩
    refine Act.NoFail_seq (Kind.create_noFail k n hn) ?_
    rintro (_ | o) hr
    · cases hr
    · have := ih1 (σ.set s (some ⟨k, o, some n.toNat⟩)) h (by rw [Vars.known_set]; exact h3) hl
      rw [Vars.known_set] at this
      exact this
  | setup s n ok threw ih1 ih2 =>
    rintro σ h ⟨k, o, h1, h2, h3, h4⟩ ⟨hn, hl⟩
    obtain ⟨v, e, hv⟩ : ∃ v, σ s = some v ∧ (v.kind, v.len) = (k, o) := Option.map_eq_some_iff.1 h1
    cases hv
    simp only [Client.run, e]
    refine Act.NoFail_seq (Kind.setup_noFail v.kind v.obj n hn) ?_
    rintro ⟨o', t⟩ (rfl : t = false)
    have := ih1 (σ.set s (some ⟨v.kind, o', some n.toNat⟩)) h (by rw [Vars.known_set]; exact h3) hl
    rw [Vars.known_set] at this
    simp only [Client.noThrow, h1]
    exact this
  | call s k c next ih =>
    rintro σ h ⟨n, h1, h2, h3, h4, h5⟩ hl
    obtain ⟨v, e, hv⟩ : ∃ v, σ s = some v ∧ (v.kind, v.len) = (k, some n) := Option.map_eq_some_iff.1 h1
    simp only [Client.run, e]
    exact ih σ _ h5 hl
  | shared s k c next ih =>
    rintro σ h ⟨n, h1, hk, h2, h3, h4, h5⟩ hl
    obtain ⟨v, e, hv⟩ : ∃ v, sh s = some v ∧ (v.kind, v.len) = (k, some n) := Option.map_eq_some_iff.1 h1
    simp only [Client.run, e]
    exact ih σ _ h5 hl
  | delete s next ih =>
    intro σ h ok hl
    cases e : σ s with
    | none =>
      simp only [Client.run, e]
      have e' : σ.known.set s none = σ.known := by
        funext t
        by_cases ht : t = s
        · subst ht; simp [Known.set, Vars.known, e]
        · simp [Known.set, ht]
      have ok : next.OK P Rd sh.known (σ.known.set s none) h := ok
      simp only [Client.noThrow, e']
      rw [e'] at ok
      exact ih σ h ok hl
    | some v =>
      simp only [Client.run, e]
      refine Act.NoFail_seq (Kind.destroy_noFail v.kind v.obj) fun _ _ => ?_
      have := ih (σ.set s none) h (by rw [Vars.known_set]; exact ok) hl
      rw [Vars.known_set] at this
      exact this
  | store q v next ih =>
    rintro σ h ⟨h1, h2, h3⟩ hl
    exact ih σ _ h3 hl

end OTFFT

namespace OTFFT.Props
open OTFFT

variable {F C : Type} [DArith F] [CArith F C] [Inhabited C] {thr : Thr}

/-- C41: a client program that makes, uses, sets up again and deletes any number of objects of any classes, in any
order, and respects the preconditions: whatever `malloc` does and however the OpenMP loops are scheduled there is no
undefined behaviour, the program ends, no cell of the client outside `P` has changed, no block of the client has been
freed; if all objects are deleted exactly the blocks of the client are allocated. If no length is
negative and no allocation fails nothing throws. -/
theorem C41_safe {p : Client C thr} {P Rd : Set Loc} {w0 : World C} (h : p.Valid P Rd w0) :
    (p.run Vars.empty Vars.empty).wp (fun σ w => w.WF ∧ w0.live ⊆ w.live ∧
      (∀ l : Loc, l.1 ∈ w0.live → l ∉ P → w.heap l = w0.heap l) ∧
      ((∀ s, σ s = none) → w.live = w0.live)) w0 ∧
    (p.lenNat → (p.run Vars.empty Vars.empty).NoFail (fun σ => σ.known = p.noThrow (fun _ => none))) := by
  refine ⟨Act.wp_mono h.spec ?_, Client.noFail Vars.empty p Vars.empty _ h.ok⟩
  rintro σ w ⟨I, -, f⟩
  refine ⟨I.wf, fun b hb => (I.live b).2 (Or.inl hb), f, fun hσ => ?_⟩
  ext b
  rw [I.live]
  constructor
  · rintro (h | ⟨s, hs⟩)
    · exact h
    · rw [hσ s] at hs; cases hs
  · exact Or.inl

/-- C41: objects share no memory. Every block that is allocated and is not the client's belongs to exactly one object;
a transform reads only the arrays passed to it and blocks of its own object, and writes only arrays passed to it and blocks of its own object (and not even those for `RealFFT`, `FFT0`
and `DCT0`). -/
theorem C41_separate {w0 w : World C} {σ : Vars C thr} (h : AfterClient w0 σ w) :
    ∃ own : ℕ → Set ℕ, (∀ s t, s ≠ t → Disjoint (own s) (own t)) ∧ (∀ s, Disjoint (own s) w0.live) ∧
      (∀ b, b ∈ w.live ↔ b ∈ w0.live ∨ ∃ s, b ∈ own s) ∧ (∀ s, σ s = none → own s = ∅) ∧
      ∀ s k o n c, σ s = some ⟨k, o, some n⟩ → k.callOK n c w.heap → (∀ l ∈ k.arrays n c, l.1 ∈ w0.live) →
        Confined ((k.cls C thr).call o c) w.heap (k.arrays n c ∪ {l | l.1 ∈ own s})
          (k.writes n c ∪ {l | k.sharable = false ∧ l.1 ∈ own s}) := by
  have I := h.inv
  refine ⟨fun s => {b | b ∈ oblocks (σ s)}, fun s t hst => ?_, fun s => ?_, I.live, fun s hs => ?_, ?_⟩
  · exact Set.disjoint_left.2 fun b h1 h2 => I.disj s t hst b h1 h2
  · exact Set.disjoint_left.2 fun b h1 h2 => I.out s b h1 h2
  · ext b; simp [oblocks, hs]
  · intro s k o n c hσ ok ha
    obtain ⟨h', g, -⟩ := I.call subset_rfl (A := k.arrays n c) ha (Tells.refl _ _) hσ ok subset_rfl subset_rfl
      (Kind.writes_sub thr k n c)
    refine g.confined ?_ (fun _ h => h)
    rintro l (h | h | h) hn
    · exact Or.inl h
    · exact absurd (I.wf.dead l (h ▸ I.wf.null)) hn
    · exact Or.inr h

/-- C41: whatever else the client program has done, with this or with other objects, a transform on an object of length
`n` gives what it gives on an object that is constructed just for this transform. -/
theorem C41_values (C : Type) [CArith F C] [Inhabited C] (thr : Thr) (k : Kind) (n : ℕ) :
    ∃ out : k.Fn → (ℕ → C) → ℕ → C,
      (∀ (w : World C) (c : (k.cls C thr).Call) (v : ℕ → C), k.setupOK n → w.WF → k.callOK n c w.heap →
        Arr w.heap (k.input c) (k.need n c) v →
        ComputesIn (k.cls C thr) n [c] w (k.writes n c) (k.output c) n (out (k.fn c) v)) ∧
      ∀ (w0 w : World C) (σ : Vars C thr) (s : ℕ) (o : (k.cls C thr).Obj) (c : (k.cls C thr).Call) (v : ℕ → C),
        AfterClient w0 σ w → σ s = some ⟨k, o, some n⟩ → k.callOK n c w.heap → (∀ l ∈ k.arrays n c, l.1 ∈ w0.live) →
        Arr w.heap (k.input c) (k.need n c) v →
        AllSched (fun h' => Arr h' (k.output c) n (out (k.fn c) v) ∧
            ∀ l : Loc, l.1 ∈ w0.live → l ∉ k.writes n c → h' l = w.heap l)
          (((k.cls C thr).call o c).start w.heap) := by
  refine ⟨fun e v => k.out C thr n e v, fun w c v hn hw ok hv => Kind.computes thr hw hn ok hv, ?_⟩
  intro w0 w σ s o c v h hσ ok ha hv
  have I := h.inv
  obtain ⟨h', g, r, -⟩ := I.call subset_rfl (A := k.arrays n c) ha (Tells.refl _ _) hσ ok subset_rfl subset_rfl
    (Kind.writes_sub thr k n c)
  refine g.allSched.mono ?_
  rintro _ rfl
  refine ⟨r v hv, fun l h1 h2 => g.out l ?_⟩
  rintro (h | h)
  · exact h2 h
  · exact I.out s _ h.2 h1

/-! ### The hypotheses are met -/

/-- A client with two objects: a real transform of block 1 into block 2, whose result is then transformed in place by
a complex object, which is afterwards set up for another length; every allocation may fail. -/
def sampleClient (C : Type) [CArith F C] (thr : Thr) : Client C thr :=
  .new 0 .complex 12 (.new 1 .real 12
      (.call 1 .real (Entry.fwd0, Ptr.base 1, Ptr.base 2)
        (.call 0 .complex (Entry.inv, Ptr.base 2) (.setup 0 20 .done (.delete 0 .done))))
      (.delete 0 .done))
    .done

theorem sampleClient_valid (v : ℕ → C) :
    (sampleClient C thr).Valid {l | l.1 ∈ ({1, 2, 3} : Set ℕ)} ∅ (withWork 12 v) := by
  obtain ⟨h1, h2, h3⟩ := withWork_ok 12 v
  have hl : RealLen 12 := Or.inr ⟨6, rfl, validLen_of_le (by omega) (by omega), by omega⟩
  have r1 : ∀ n, Region (Ptr.base 1) n ⊆ {l : Loc | l.1 ∈ ({1, 2, 3} : Set ℕ)} := fun n l h => by
    show l.1 ∈ ({1, 2, 3} : Set ℕ); rw [region_buf h]; simp [Ptr.base]
  have r2 : ∀ n, Region (Ptr.base 2) n ⊆ {l : Loc | l.1 ∈ ({1, 2, 3} : Set ℕ)} := fun n l h => by
    show l.1 ∈ ({1, 2, 3} : Set ℕ); rw [region_buf h]; simp [Ptr.base]
  refine ⟨h1.wf, fun l h => by simpa [withWork] using h, rfl, ⟨by omega, by omega⟩, ⟨rfl, ⟨by omega, by omega⟩, ⟨12, rfl, ?_, ?_, ?_, 12, rfl, ?_, ?_, ?_,
    .complex, some 12, rfl, ⟨by omega, by omega⟩, trivial, trivial⟩, trivial⟩, trivial⟩
  · exact ⟨hl, h1.arr.filled, h1.arr.filled.alloc', h2, Sep.of_buf (by simp [Ptr.base]) _ _⟩
  · exact Set.union_subset ((r1 12).trans Set.subset_union_left) ((r2 12).trans Set.subset_union_left)
  · exact r2 12
  · refine ⟨validLen_of_le (by omega) (by omega), fun i hi => ⟨default, if_pos ?_⟩⟩
    exact ⟨i, hi, rfl⟩
  · exact (r2 12).trans Set.subset_union_left
  · exact r2 12

/-- there is an execution in which nothing throws: afterwards variable 0 is a complex object of length 20, variable 1 a
real one of length 12 -/
example (v : ℕ → C) : ∃ (σ : Vars C thr) (w : World C) (o0 : FFT) (o1 : RFFT), AfterClient (withWork 12 v) σ w ∧
    σ 0 = some ⟨.complex, o0, some 20⟩ ∧ σ 1 = some ⟨.real, o1, some 12⟩ ∧
    Kind.callOK (thr := thr) .real 12 (Entry.fwd, Ptr.base 1, Ptr.base 2) w.heap := by
  have hv := sampleClient_valid (thr := thr) v
  obtain ⟨σ, w, hr, hk, I, ht, hq⟩ := Act.wp_exists_ok hv.spec ((C41_safe hv).2 (by simp [sampleClient, Client.lenNat])) (by simp [withWork])
  have h0 : σ.known 0 = some (.complex, some 20) := by rw [hk]; rfl
  have h1 : σ.known 1 = some (.real, some 12) := by rw [hk]; rfl
  obtain ⟨⟨k0, o0, l0⟩, e0, hv0⟩ : ∃ v, σ 0 = some v ∧ (v.kind, v.len) = (.complex, some 20) := Option.map_eq_some_iff.1 h0
  obtain ⟨⟨k1, o1, l1⟩, e1, hv1⟩ : ∃ v, σ 1 = some v ∧ (v.kind, v.len) = (.real, some 12) := Option.map_eq_some_iff.1 h1
  cases hv0
  cases hv1
  refine ⟨σ, w, o0, o1, ⟨_, _, _, hv, hr⟩, e0, e1, ?_⟩
  obtain ⟨a1, a2, a3⟩ := withWork_ok 12 v
  have ok : realOK 12 (.fwd, Ptr.base 1, Ptr.base 2) (withWork 12 v).heap :=
    ⟨Or.inr ⟨6, rfl, validLen_of_le (by omega) (by omega), by omega⟩, a1.arr.filled, a1.arr.filled.alloc', a2, Sep.of_buf (by simp [Ptr.base]) _ _⟩
  have kp : KeepsInit {1, 2, 3} (withWork 12 v).heap w.heap := fun l hl => ht l (Or.inl hl)
  exact KeepsInit.realOK kp (by simp [Ptr.base]) (by simp [Ptr.base]) ok

end OTFFT.Props

namespace OTFFT

variable {F C : Type} [DArith F] [CArith F C] {thr : Thr}

/-! ### C41: misuse of pointers -/

/-- The next statement of the client program goes through a null pointer or calls a member function of the wrong class. -/
def Client.Misuse (sh σ : Vars C thr) : Client C thr → Prop
  | .setup s _ _ _ => σ s = none
  | .call s k _ _ => ∀ v, σ s = some v → v.kind ≠ k
  | .shared s k _ _ => ∀ v, sh s = some v → v.kind ≠ k
  | _ => False

theorem Code.Doomed.act {α : Type} {c : Code C} (hd : c.Doomed) (k : Unit → Act C α) (w : World C) :
    (Act.exec c >>= k).MayUB w ∧ ∀ a w', ¬ (Act.exec c >>= k).Runs w a w' := by
  constructor
  · exact Act.mayUB_left (.code (Code.Doomed.alwaysUB hd _).reach)
  · intro a w' hr
    have hr : (Act.run c (k ())).Runs w a w' := hr
    cases hr with
    | run h1 h2 _ =>
      refine Config.Doomed.not_final (c := _) ?_ h2
      clear h2
      have : ∀ {c d : Config C}, c.Doomed → Reach c d → d.Doomed := by
        intro c d hc hr
        induction hr with
        | refl => exact hc
        | step s _ ih => exact ih (Config.Doomed.step hc s)
      exact this (Or.inr hd) h1

/-- C41: such a statement is undefined behaviour, and no execution of the program comes to an end. -/
theorem Props.C41_misuse {p : Client C thr} {sh σ : Vars C thr} (w : World C) (h : p.Misuse sh σ) :
    (p.run sh σ).MayUB w ∧ ∀ σ' w', ¬ (p.run sh σ).Runs w σ' w' := by
  have ub : Code.Doomed ([[.ub]] : Code C) := ⟨[.ub], by simp, .ub, by simp, .ub⟩
  have crash : ∀ k : Unit → Act C (Vars C thr), (Act.crash >>= k).MayUB w ∧ ∀ a w', ¬ (Act.crash >>= k).Runs w a w' :=
    fun k => Code.Doomed.act ub k w
  cases p with
  | setup s n ok threw =>
    have h : σ s = none := h
    simp only [Client.run, h]
    exact crash _
  | call s k c next =>
    have h : ∀ v, σ s = some v → v.kind ≠ k := h
    unfold Client.run
    cases hs : σ s with
    | none => exact crash _
    | some v =>
      simp only [Slot.call, dif_neg (h v hs)]
      exact Code.Doomed.act ub _ w
  | shared s k c next =>
    have h : ∀ v, sh s = some v → v.kind ≠ k := h
    unfold Client.run
    cases hs : sh s with
    | none => exact crash _
    | some v =>
      simp only [Slot.call, dif_neg (h v hs)]
      exact Code.Doomed.act ub _ w
  | _ => exact h.elim

/-- C41: after `delete s`, a `setup` of or a call through `s` is undefined behaviour in every execution that gets there: there is none
that comes to an end. -/
theorem Props.C41_deleted {sh σ : Vars C thr} (w : World C) (s : ℕ) :
    (∀ (n : Int) (ok threw : Client C thr) σ' w', ¬ ((Client.delete s (.setup s n ok threw)).run sh σ).Runs w σ' w') ∧
    ∀ (k : Kind) (c : (k.cls C thr).Call) (next : Client C thr) σ' w',
      ¬ ((Client.delete s (.call s k c next)).run sh σ).Runs w σ' w' := by
  have key : ∀ (p : Client C thr), (∀ σ1 : Vars C thr, σ1 s = none → p.Misuse sh σ1) → ∀ σ' w',
      ¬ ((Client.delete s p).run sh σ).Runs w σ' w' := by
    intro p hp σ' w' hr
    unfold Client.run at hr
    cases hs : σ s with
    | none =>
      rw [hs] at hr
      exact (Props.C41_misuse w (hp σ hs)).2 _ _ hr
    | some v =>
      rw [hs] at hr
      obtain ⟨_, w1, -, h2⟩ := Act.Runs.of_bind hr
      exact (Props.C41_misuse w1 (hp (σ.set s none) (by simp [Vars.set]))).2 _ _ h2
  exact ⟨fun n ok threw => key _ fun σ1 h => h, fun k c next => key _ fun σ1 h v hv => by rw [h] at hv; cases hv⟩

/-- a program of the kind meant -/
example (σ : Vars C thr) (h : σ 0 = none) : (Client.call (thr := thr) 0 .complex ((.fwd, Ptr.base 1) : Entry × Ptr) .done).Misuse Vars.empty σ :=
  fun v hv => by rw [h] at hv; cases hv

end OTFFT
