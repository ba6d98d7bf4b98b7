/-
Construct, make a sequence of calls, destroy: any class.
-/
import Verif.Proof.Once
import Verif.Spec.Api

namespace OTFFT

variable {C : Type}

theorem ClsSpec.sessionSteps {X : Cls C} (S : ClsSpec X) {E : Set Nat} {n : Nat} (cs : List X.Call) :
    ∀ (P : Nat → Heap C → Prop) {w : World C} (o : X.Obj), Owned E (S.blocks o) w → S.Ready o n w.heap → P 0 w.heap →
      (∀ i c, cs[i]? = some c → ∀ o w', Owned E (S.blocks o) w' → S.Ready o n w'.heap → P i w'.heap →
        (Act.exec (X.call o c)).wp (fun _ w'' => Owned E (S.blocks o) w'' ∧ S.Ready o n w''.heap ∧
          P (i + 1) w''.heap) w') →
      (X.session o true (cs.map .call)).wp (fun s w'' => s.2 = true ∧ Owned E (S.blocks s.1) w'' ∧
        P cs.length w''.heap) w := by
  induction cs with
  | nil => intro P w o ow _ h0 _; exact ⟨rfl, ow, h0⟩
  | cons c cs ih =>
    intro P w o ow hr h0 hstep
    have hs : X.session o true ((c :: cs).map .call) =
        (Act.exec (X.call o c) >>= fun _ => X.session o true (cs.map .call)) := rfl
    rw [hs]
    refine Act.wp_seq (hstep 0 c rfl o w ow hr h0) ?_
    rintro _ w1 ⟨a, b, d⟩
    exact ih (fun i => P (i + 1)) o a b d fun i c' hc => hstep (i + 1) c' (by simpa using hc)

theorem ClsSpec.steps {X : Cls C} (S : ClsSpec X) {w : World C} {n : Nat} (cs : List X.Call)
    (P : Nat → Heap C → Prop) (hn : S.SetupOK n) (hw : w.WF) (h0 : P 0 w.heap)
    (hP : ∀ i h h', Same w.live h h' → P i h → P i h')
    (hstep : ∀ i c, cs[i]? = some c → ∀ o w', Owned w.live (S.blocks o) w' → S.Ready o n w'.heap → P i w'.heap →
        (Act.exec (X.call o c)).wp (fun _ w'' => Owned w.live (S.blocks o) w'' ∧ S.Ready o n w''.heap ∧
          P (i + 1) w''.heap) w') :
    (X.lifetime n (cs.map .call)).wp (fun r w' => w'.WF ∧ w'.live = w.live ∧ (r = true → P cs.length w'.heap) ∧
      (r = false → w'.heap = w.heap)) w := by
  refine Act.wp_mono (S.calls (P := P cs.length) hn (Owned.start hw) ?_ (hP _)) ?_
  · intro o w' ow hr hs
    exact S.sessionSteps cs P o ow hr (hP _ _ _ hs h0) hstep
  · rintro r w' ⟨a, b, c⟩
    have hlive : w'.live = w.live := by rw [a.live]; simp
    exact ⟨a.wf, hlive, b, fun h => funext fun l => hw.ext a.wf hlive (D := ∅) (fun l hl _ => c h l hl) l (by simp)⟩

/-- the final assertion is about an array, everything outside it and `D` is as before -/
theorem ClsSpec.computesIn {X : Cls C} (S : ClsSpec X) {w : World C} {n : Nat} {cs : List X.Call}
    {D : Set Loc} {out : Ptr} {m : Nat} {r : Nat → C}
    (P : Nat → Heap C → Prop) (hn : S.SetupOK n) (hw : w.WF) (h0 : P 0 w.heap)
    (hP : ∀ i h h', Same w.live h h' → P i h → P i h')
    (hstep : ∀ i c, cs[i]? = some c → ∀ o w', Owned w.live (S.blocks o) w' → S.Ready o n w'.heap → P i w'.heap →
        (Act.exec (X.call o c)).wp (fun _ w'' => Owned w.live (S.blocks o) w'' ∧ S.Ready o n w''.heap ∧
          P (i + 1) w''.heap) w')
    (hfin : ∀ h, P cs.length h → Arr h out m r ∧ ∀ l : Loc, l.1 ∈ w.live → l ∉ Region out m ∪ D → h l = w.heap l)
    (hnf : (X.lifetime n (cs.map .call)).NoFail (fun ok => ok = true)) :
    ComputesIn X n cs w D out m r := by
  refine ⟨Act.wp_mono (S.steps cs P hn hw h0 hP hstep) ?_, hnf⟩
  rintro ok w' ⟨a, b, c, d⟩
  exact ⟨b, fun h => ⟨(hfin _ (c h)).1, hw.ext a b (hfin _ (c h)).2⟩, d⟩

end OTFFT
