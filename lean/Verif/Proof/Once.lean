/-
Construct, call once, destroy.
-/
import Verif.Proof.FFTObj

noncomputable section

namespace OTFFT

variable {F C : Type} [DArith F] [CArith F C]

theorem ClsSpec.calls {X : Cls C} (S : ClsSpec X) {E : Set Nat} {w : World C} {n : Nat} {cs : List X.Call}
    {P : Heap C → Prop} (hn : S.SetupOK n) (ho : Owned E [] w)
    (hc : ∀ o w', Owned E (S.blocks o) w' → S.Ready o n w'.heap → Same E w.heap w'.heap →
      (X.session o true (cs.map .call)).wp (fun s w'' => s.2 = true ∧ Owned E (S.blocks s.1) w'' ∧
        P w''.heap) w')
    (hP : ∀ h h', Same E h h' → P h → P h') :
    (X.lifetime n (cs.map .call)).wp (fun r w' => Owned E [] w' ∧ (r = true → P w'.heap) ∧
      (r = false → Same E w.heap w'.heap)) w := by
  unfold Cls.lifetime Cls.use
  refine Act.wp_seq (P := fun r w' => match r with
    | none => Owned E [] w' ∧ Same E w.heap w'.heap
    | some s => s.2 = true ∧ Owned E (S.blocks s.1) w' ∧ P w'.heap) ?_ ?_
  · refine Act.wp_seq (S.create_spec n hn ho) ?_
    rintro r w' ⟨h1, h2⟩
    cases r with
    | none => exact ⟨h2, h1⟩
    | some o =>
      refine Act.wp_seq (hc o w' h2.1 h2.2 h1) ?_
      rintro s w2 h; exact h
  · rintro r w' h
    cases r with
    | none => exact ⟨h.1, by simp, fun _ => h.2⟩
    | some s =>
      obtain ⟨o, ok⟩ := s
      obtain ⟨h1, h2, h3⟩ := h
      cases h1
      refine Act.wp_seq (S.destroy_spec _ h2) ?_
      rintro _ w3 ⟨a, b⟩
      exact ⟨a, fun _ => hP _ _ b h3, by simp⟩

theorem Owned.start {w : World C} (h : w.WF) : Owned w.live [] w :=
  ⟨h, List.nodup_nil, by simp, by simp⟩

/-- heaps that agree on the allocated blocks agree -/
theorem World.WF.ext {w w' : World C} (h : w.WF) (h' : w'.WF) (hl : w'.live = w.live) {D : Set Loc}
    (hs : ∀ l : Loc, l.1 ∈ w.live → l ∉ D → w'.heap l = w.heap l) : ∀ l, l ∉ D → w'.heap l = w.heap l := by
  intro l hd
  by_cases hm : l.1 ∈ w.live
  · exact hs l hm hd
  · rw [h.dead l hm, h'.dead l (by rw [hl]; exact hm)]

/-- what a sequence of transforms on the same array computes -/
def fftOuts (C : Type) [CArith F C] (thr : Thr) (n : Nat) : List Entry → (Nat → C) → (Nat → C)
  | [], v => v
  | e :: es, v => fftOuts C thr n es (fftOut C thr e.isInv e.mode n v)

theorem FFT.session {thr : Thr} {E : Set Nat} {n : Nat} {x : Ptr} (hn : ValidLen n) (hx : x.buf ∈ E)
    (es : List Entry) : ∀ {w : World C} {o : FFT} {v : Nat → C}, Owned E o.blocks w →
      o.Ready C thr n w.heap → Arr w.heap x n v →
      ((complexFFT C thr).session o true ((es.map fun e => (e, x)).map .call)).wp
        (fun s w'' => s.2 = true ∧ Owned E (FFT.blocks s.1) w'' ∧
          (Arr w''.heap x n (fftOuts C thr n es v) ∧
          ∀ l : Loc, l.1 ∈ E → l ∉ Region x n → w''.heap l = w.heap l)) w := by
  induction es with
  | nil => intro w o v ow _ ha; exact ⟨rfl, ow, ha, fun _ _ _ => rfl⟩
  | cons e es ih =>
    intro w o v ow hr ha
    have hs : (complexFFT C thr).session o true (((e :: es).map fun e => (e, x)).map .call) =
        (Act.exec (o.call C thr e x) >>= fun _ =>
          (complexFFT C thr).session o true ((es.map fun e => (e, x)).map .call)) := rfl
    rw [hs]
    have hxb : x.buf ∉ FFT.blocks o := fun h => ow.disj _ h hx
    refine Act.wp_seq (FFT.call_spec (rest := []) (e := e) hn
      (ow.perm (by rw [List.append_nil])) hr ha hxb) ?_
    rintro _ w1 ⟨a, b, c, d⟩
    refine Act.wp_mono (ih (a.perm (by rw [List.append_nil])) d b) ?_
    rintro s w2 ⟨h1, h2, h3, h4⟩
    refine ⟨h1, h2, h3, fun l hl hnr => ?_⟩
    rw [h4 l hl hnr, c l (fun h => ow.disj _ h hl) hnr]

/-- construct a ComplexFFT of length `n`, transform `x`, destroy the object -/
theorem FFT.calls {thr : Thr} {w : World C} {n : Nat} {es : List Entry} {x : Ptr} {v : Nat → C}
    (hn : ValidLen n) (hx : UserArray w x n v) [Inhabited C] :
    ((complexFFT C thr).lifetime n ((es.map fun e => (e, x)).map .call)).wp (fun r w' =>
      w'.live = w.live ∧
      (r = true → Arr w'.heap x n (fftOuts C thr n es v) ∧ ∀ l, l ∉ Region x n → w'.heap l = w.heap l) ∧
      (r = false → w'.heap = w.heap)) w := by
  have h2 := hn.two
  have hxl : x.buf ∈ w.live := hx.wf.buf_live (by omega) hx.arr.alloc
  refine Act.wp_mono ((complexFFTSpec C thr).calls (E := w.live)
    (P := fun h => Arr h x n (fftOuts C thr n es v) ∧
        ∀ l : Loc, l.1 ∈ w.live → l ∉ Region x n → h l = w.heap l) hn.intLen (Owned.start hx.wf) ?_ ?_) ?_
  · intro o w' ow hr hs
    have hax : Arr w'.heap x n v := fun i hi => by rw [hs.ptr hxl]; exact hx.arr i hi
    refine Act.wp_mono (FFT.session hn hxl es ow hr hax) ?_
    rintro s w'' ⟨a, b, c, d⟩
    exact ⟨a, b, c, fun l hl hnr => by rw [d l hl hnr, hs l hl]⟩
  · rintro h h' s ⟨a, b⟩
    refine ⟨fun i hi => by rw [s.ptr hxl]; exact a i hi, fun l hl hnr => by rw [s l hl]; exact b l hl hnr⟩
  · rintro r w' ⟨a, b, c⟩
    have hlive : w'.live = w.live := by rw [a.live]; simp
    refine ⟨hlive, fun h => ⟨(b h).1, hx.wf.ext a.wf hlive (b h).2⟩, fun h => funext fun l => ?_⟩
    exact hx.wf.ext a.wf hlive (D := ∅) (fun l hl _ => c h l hl) l (by simp)

/-! ### without allocation failure nothing throws -/

theorem SArr.release_noFail {a : SArr} {P : Unit → Prop} : (SArr.release C a).NoFail P ↔ P () := by
  cases a <;> rfl

theorem SArr.setup_noFail {a : SArr} {n : Int} (hn : 0 ≤ n) :
    (SArr.setup C a n).NoFail (fun r => ∃ b, r = some b) := by
  unfold SArr.setup
  rw [Act.NoFail_bind, SArr.release_noFail, if_neg (not_lt.2 hn)]
  exact fun b => ⟨b, rfl⟩

theorem SArr.setupI_seq {α : Type} {a : SArr} {n : Int} {f : SArr → Act C α} {Q : α → Prop} (hn : 0 ≤ n)
    (h : ∀ b, (f (some b)).NoFail Q) : (SArr.setup C a n >>= f).NoFail Q :=
  Act.NoFail_seq (SArr.setup_noFail hn) (by rintro _ ⟨b, rfl⟩; exact h b)

theorem SArr.setup_seq {α : Type} {a : SArr} {n : Nat} {f : SArr → Act C α} {Q : α → Prop}
    (h : ∀ b, (f (some b)).NoFail Q) : (SArr.setup C a n >>= f).NoFail Q := SArr.setupI_seq (by omega) h

theorem Act.int_noFail {α : Type} {n : Int} {f : Unit → Act C α} {Q : α → Prop} (h : (f ()).NoFail Q) :
    (Act.int n >>= f).NoFail Q := by
  unfold Act.int
  split <;> exact h

theorem andThen_noFail {O : Type} {m : Act C (O × Bool)} {f : O → Act C (O × Bool)}
    (h : m.NoFail fun r => r.2 = false) (hf : ∀ o, (f o).NoFail fun r => r.2 = false) :
    (andThen m f).NoFail fun r => r.2 = false := by
  refine Act.NoFail_seq h ?_
  rintro ⟨o, b⟩ hb
  simp only at hb
  subst hb
  exact hf o

theorem Algo.setup_noFail {thr : Thr} {o : Algo} {n : Int} {k : Option Nat} (hn : -1 ≤ n) :
    (o.setup C thr n k).NoFail fun r => r.2 = false := by
  unfold Algo.setup
  split
  · unfold stockSetup2
    simp only
    split
    · rfl
    · exact SArr.setup_seq fun b => rfl
  · unfold sixSetup2
    have hsub : ∀ o m, (sixSetupSub C thr o m).NoFail fun r => r.2 = false := by
      intro o m
      unfold sixSetupSub
      split
      · rfl
      · exact SArr.setup_seq fun b => rfl
    simp only
    split
    · unfold sixSetupW
      split
      · rfl
      · exact SArr.setup_seq fun b => rfl
    · split
      · refine andThen_noFail (andThen_noFail ?_ ?_) fun o => hsub _ _
        · unfold sixSetup8xm
          exact SArr.setup_seq fun b => rfl
        · intro o
          unfold sixSetupMed
          exact SArr.setup_seq fun b => SArr.setup_seq fun b => rfl
      · refine andThen_noFail ?_ fun o => hsub _ _
        unfold sixSetupNxn
        exact SArr.setup_seq fun b => SArr.setup_seq fun b => rfl
  · unfold mixedSetup
    exact Act.int_noFail (SArr.setupI_seq (by omega) fun b => rfl)

theorem Algo.delete_noFail {o : Algo} {P : Unit → Prop} (h : P ()) : (o.delete C).NoFail P := by
  unfold Algo.delete
  simp only [Act.NoFail_bind, SArr.release_noFail]
  exact h

theorem FFT0.reset_noFail {o : FFT0} {P : Unit → Prop} (h : P ()) : (o.reset C).NoFail P := by
  unfold FFT0.reset
  split
  · exact h
  · exact Algo.delete_noFail h

theorem FFT0.setup_noFail {thr : Thr} {o : FFT0} {n : Int} (hn : -1 ≤ n) :
    (o.setup C thr n).NoFail fun r => r.2 = false := by
  unfold FFT0.setup
  refine Act.NoFail_seq (FFT0.reset_noFail (P := fun _ => True) trivial) fun _ _ => ?_
  simp only
  split
  · rfl
  · intro b
    refine Act.NoFail_seq (Algo.setup_noFail hn) ?_
    rintro ⟨r, t⟩ ht
    simp only at ht
    subst ht
    rfl

theorem FFT.setup_noFail {thr : Thr} {o : FFT} {n : Int} (hn : 0 ≤ n) :
    (o.setup C thr n).NoFail fun r => r.2 = false := by
  unfold FFT.setup
  refine Act.NoFail_seq (FFT0.setup_noFail (by omega)) ?_
  rintro ⟨r, t⟩ ht
  simp only at ht
  subst ht
  exact SArr.setupI_seq hn fun b => rfl

theorem FFT.create_noFail {thr : Thr} {n : Int} (hn : 0 ≤ n) :
    (FFT.create C thr n).NoFail fun r => r.isSome = true := by
  unfold FFT.create
  refine Act.NoFail_seq (FFT0.setup_noFail (by omega)) ?_
  rintro ⟨r, t⟩ ht
  simp only at ht
  subst ht
  exact SArr.setupI_seq hn fun b => rfl

theorem FFT.destroy_noFail {o : FFT} {P : Unit → Prop} (h : P ()) : (o.destroy C).NoFail P := by
  unfold FFT.destroy
  rw [Act.NoFail_bind, SArr.release_noFail]
  exact FFT0.reset_noFail h

/-- any class: if construction and `setup` cannot fail without a failing allocation, neither can a
program that uses the object -/
theorem Cls.use_noFail {X : Cls C} (hc : ∀ n, 0 ≤ n → (X.create n).NoFail fun r => r.isSome = true)
    (hs : ∀ o n, 0 ≤ n → (X.setup o n).NoFail fun r => r.2 = false) (n : Int) (hn : 0 ≤ n)
    (ops : List (Op C X.Call)) (ho : ∀ op ∈ ops, op.lenNat) :
    (X.use n ops).NoFail fun r => ∃ o, r = some (o, true) := by
  have hses : ∀ (ops : List (Op C X.Call)), (∀ op ∈ ops, op.lenNat) → ∀ o,
      (X.session o true ops).NoFail fun r => r.2 = true := by
    intro ops
    induction ops with
    | nil => intro _ o; rfl
    | cons op ops ih =>
      intro hall o
      have ih := ih fun op h => hall op (List.mem_cons_of_mem _ h)
      cases op with
      | setup n =>
        refine Act.NoFail_seq (hs o n (hall _ List.mem_cons_self)) ?_
        rintro ⟨r, t⟩ ht
        simp only at ht
        subst ht
        exact ih r
      | call c =>
        unfold Cls.session
        rw [if_pos rfl]
        exact ih o
      | store p v => exact ih o
  refine Act.NoFail_seq (hc n hn) ?_
  rintro (_ | o) ho'
  · simp at ho'
  · refine Act.NoFail_seq (hses ops ho o) ?_
    rintro ⟨o, b⟩ hs
    simp only at hs
    subst hs
    exact ⟨o, rfl⟩

/-- … and neither can a whole lifetime -/
theorem Cls.lifetime_noFail {X : Cls C} (hc : ∀ n, 0 ≤ n → (X.create n).NoFail fun r => r.isSome = true)
    (hs : ∀ o n, 0 ≤ n → (X.setup o n).NoFail fun r => r.2 = false)
    (hd : ∀ o, (X.destroy o).NoFail fun _ => True) (n : Int) (hn : 0 ≤ n) (ops : List (Op C X.Call))
    (ho : ∀ op ∈ ops, op.lenNat) :
    (X.lifetime n ops).NoFail fun r => r = true := by
  refine Act.NoFail_seq (Cls.use_noFail hc hs n hn ops ho) ?_
  rintro _ ⟨o, rfl⟩
  refine Act.NoFail_seq (hd o) ?_
  intro _ _
  rfl

theorem lenNat_calls {Call : Type} (cs : List Call) : ∀ op ∈ cs.map (Op.call (C := C)), op.lenNat := by
  intro op h
  obtain ⟨c, _, rfl⟩ := List.mem_map.1 h
  trivial

theorem FFT.lifetime_noFail {thr : Thr} (n : Int) (hn : 0 ≤ n) (ops : List (Op C (Entry × Ptr)))
    (ho : ∀ op ∈ ops, op.lenNat) : ((complexFFT C thr).lifetime n ops).NoFail fun r => r = true :=
  Cls.lifetime_noFail (X := complexFFT C thr) (fun _ h => FFT.create_noFail h) (fun _ _ h => FFT.setup_noFail h)
    (fun _ => FFT.destroy_noFail trivial) _ hn _ ho

end OTFFT
