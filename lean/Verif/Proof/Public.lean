/-
Objects created by the factory.
-/
import Verif.Model.Public
import Verif.Proof.Fail

namespace OTFFT

variable {C : Type}

theorem Cls.boxed_session (X : Cls C) (b : Nat) (ops : List (Op C X.Call)) : ∀ (o : X.Obj) (ok : Bool),
    X.boxed.session (b, o) ok ops = (X.session o ok ops).bind fun r => .ret ((b, r.1), r.2) := by
  induction ops with
  | nil => intro o ok; rfl
  | cons op ops ih =>
    intro o ok
    cases op with
    | setup n =>
      show ((X.setup o n).bind fun r => Act.ret ((b, r.1), r.2)).bind (fun r => X.boxed.session r.1 (!r.2) ops) =
        ((X.setup o n).bind fun r => X.session r.1 (!r.2) ops).bind fun r => .ret ((b, r.1), r.2)
      rw [Act.bind_assoc, Act.bind_assoc]
      congr 1
      funext r
      exact ih r.1 (!r.2)
    | call c =>
      cases ok with
      | true =>
        show Act.run _ ((Act.ret ()).bind fun _ => X.boxed.session (b, o) true ops) =
          Act.run _ (((Act.ret ()).bind fun _ => X.session o true ops).bind fun r => .ret ((b, r.1), r.2))
        congr 1
        exact ih o true
      | false => exact ih o false
    | store p v =>
      show Act.run _ ((Act.ret ()).bind fun _ => X.boxed.session (b, o) ok ops) =
        Act.run _ (((Act.ret ()).bind fun _ => X.session o ok ops).bind fun r => .ret ((b, r.1), r.2))
      congr 1
      exact ih o ok

/-- The life of an object on the heap. -/
theorem Cls.boxed_lifetime (X : Cls C) (n : Int) (ops : List (Op C X.Call)) :
    X.boxed.lifetime n ops = .malloc 0 fun p => match p with
      | none => .ret false
      | some b => (X.lifetime n ops).bind fun ok => .free b (.ret ok) := by
  show (Act.malloc 0 fun p => _) = _
  congr 1
  funext p
  cases p with
  | none => rfl
  | some b =>
    have e1 : ∀ (m : Act C (Option X.Obj)) (f : Option X.Obj → Act C (Option X.boxed.Obj))
        (g : Option X.boxed.Obj → Act C (Option (X.boxed.Obj × Bool)))
        (h : Option (X.boxed.Obj × Bool) → Act C Bool), ((m.bind f).bind g).bind h =
        m.bind fun r => ((f r).bind g).bind h := fun m f g h => by
      rw [Act.bind_assoc, Act.bind_assoc]
      congr 1
      funext r
      rw [Act.bind_assoc]
    refine (e1 _ _ _ _).trans ?_
    show _ = (((X.create n).bind _).bind _).bind _
    rw [Act.bind_assoc, Act.bind_assoc]
    congr 1
    funext r
    cases r with
    | none => rfl
    | some o =>
      have e2 : ∀ (m : Act C (X.Obj × Bool)) (f : X.Obj × Bool → Act C (X.boxed.Obj × Bool))
          (g : X.boxed.Obj × Bool → Act C (Option (X.boxed.Obj × Bool)))
          (h : Option (X.boxed.Obj × Bool) → Act C Bool), ((m.bind f).bind g).bind h =
          m.bind fun r => ((f r).bind g).bind h := fun m f g h => by
        rw [Act.bind_assoc, Act.bind_assoc]
        congr 1
        funext r
        rw [Act.bind_assoc]
      show ((X.boxed.session (b, o) true ops).bind _).bind _ = ((X.session o true ops).bind _).bind _
      rw [Cls.boxed_session, Act.bind_assoc]
      refine (e2 _ _ _ _).trans ?_
      congr 1
      funext s
      show ((X.destroy s.1).bind _).bind _ = ((X.destroy s.1).bind _).bind _
      rw [Act.bind_assoc, Act.bind_assoc]
      rfl

theorem World.alloc_zero {w : World C} (hw : w.WF) {b : Nat} (hb : b ∉ w.live) : (w.alloc b 0).heap = w.heap := by
  funext l
  show (if l.1 = b then (if l.2 < 0 then some none else none) else w.heap l) = _
  split
  · rename_i h
    rw [if_neg (by omega), hw.dead l (h ▸ hb)]
  · rfl

theorem World.WF.alloc_zero {w : World C} (hw : w.WF) {b : Nat} (h0 : b ≠ 0) (hb : b ∉ w.live) : (w.alloc b 0).WF := by
  refine ⟨?_, fun l hl => ?_⟩
  · rintro (h | h)
    · exact h0 h.symm
    · exact hw.null h
  · rw [World.alloc_zero hw hb]
    exact hw.dead l fun h => hl (.inr h)

theorem Cls.boxed_wp {X : Cls C} {n : Int} {ops : List (Op C X.Call)} {w : World C} {Q : Bool → World C → Prop}
    (h0 : Q false w) (h : ∀ b, b ≠ 0 → b ∉ w.live → (X.lifetime n ops).wp (fun ok w' => b ∈ w'.live ∧ Q ok (w'.free b))
      (w.alloc b 0)) : (X.boxed.lifetime n ops).wp Q w := by
  rw [Cls.boxed_lifetime]
  refine ⟨h0, fun b hb hl => ?_⟩
  exact Act.wp_seq (h b hb hl) fun ok w' h => h

theorem Cls.boxed_noFail {X : Cls C} {n : Int} {ops : List (Op C X.Call)} {P : Bool → Prop}
    (h : (X.lifetime n ops).NoFail P) : (X.boxed.lifetime n ops).NoFail P := by
  rw [Cls.boxed_lifetime]
  intro b
  exact Act.NoFail_seq h fun _ h => h

/-- When the machine runs the code, the outcome is that of the object's life. -/
theorem publicLife_eq {b : Build} {c : Cpu} {k : Family} {X : Isa → Cls C} {n : Int} {t : OptType}
    {ops : ∀ i, List (Op C (X i).Call)} {o : Obj} {d : Isa} (hc : create b c k n t = .ok o) (hd : deleterOf b c = .ok d)
    (ho : Spec.canRun c o.isa) (hr : Spec.canRun c d) :
    publicLife b c k X n t ops = ((X o.isa).boxed.lifetime n (ops o.isa)).bind fun ok => .ret (.ended ok) := by
  unfold publicLife
  rw [hc]
  show (if Spec.canRun c o.isa then _ else _) = _
  rw [if_pos ho, hd]
  show ((X o.isa).boxed.use n (ops o.isa)).bind _ = (((X o.isa).boxed.use n (ops o.isa)).bind _).bind _
  rw [Act.bind_assoc]
  congr 1
  funext r
  cases r with
  | none => rfl
  | some s =>
    show (if Spec.canRun c d then _ else _) = (((X o.isa).boxed.destroy s.1).bind _).bind _
    rw [if_pos hr, Act.bind_assoc]
    rfl

end OTFFT
