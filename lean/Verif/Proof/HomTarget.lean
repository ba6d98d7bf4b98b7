/-
On every instruction set, the operations on complex numbers preserve what the operations on doubles preserve.
-/
import Verif.Spec.Hom
import Verif.Proof.Hom

namespace OTFFT

open Intrin

variable {E F : Type} [FArith E] [FArith F] {r : E → F → F → Prop}

/-- what is needed of the operations on doubles -/
structure Pres (r : E → F → F → Prop) : Prop where
  zero : r (fofNat 0) (fofNat 0) (fofNat 0)
  neg : ∀ {c a a'}, r c a a' → r (fneg c) (fneg a) (fneg a')
  add : ∀ {c d a a' b b'}, r c a a' → r d b b' → r (fadd c d) (fadd a b) (fadd a' b')
  sub : ∀ {c d a a' b b'}, r c a a' → r d b b' → r (fsub c d) (fsub a b) (fsub a' b')
  mulL : ∀ {k w c a a'}, r c a a' → r (fmul k c) (fmul w a) (fmul w a')
  mulR : ∀ {k w c a a'}, r c a a' → r (fmul c k) (fmul a w) (fmul a' w)
  div : ∀ {k w c a a'}, r c a a' → r (fdiv c k) (fdiv a w) (fdiv a' w)
  fmaL : ∀ {k w c d a a' b b'}, r c a a' → r d b b' → r (ffma k c d) (ffma w a b) (ffma w a' b')
  fmaR : ∀ {k w c d a a' b b'}, r c a a' → r d b b' → r (ffma c k d) (ffma a w b) (ffma a' w b')
  fmsL : ∀ {k w c d a a' b b'}, r c a a' → r d b b' → r (ffms k c d) (ffms w a b) (ffms w a' b')
  fmsR : ∀ {k w c d a a' b b'}, r c a a' → r d b b' → r (ffms c k d) (ffms a w b) (ffms a' w b')

/-- both components are related -/
def Both3 (r : E → F → F → Prop) (c : Xmm E) (a b : Xmm F) : Prop := r (c 0) (a 0) (b 0) ∧ r (c 1) (a 1) (b 1)

/-- what is to be shown about the primitives -/
structure XmmOps.Hom (Y : XmmOps E) (X : XmmOps F) (r : E → F → F → Prop) : Prop where
  add : ∀ {c d a a' b b'}, Both3 r c a a' → Both3 r d b b' → Both3 r (Y.addpz c d) (X.addpz a b) (X.addpz a' b')
  sub : ∀ {c d a a' b b'}, Both3 r c a a' → Both3 r d b b' → Both3 r (Y.subpz c d) (X.subpz a b) (X.subpz a' b')
  cnj : ∀ {c a a'}, Both3 r c a a' → Both3 r (Y.cnjpz c) (X.cnjpz a) (X.cnjpz a')
  jx : ∀ {c a a'}, Both3 r c a a' → Both3 r (Y.jxpz c) (X.jxpz a) (X.jxpz a')
  v8 : ∀ {c a a'}, Both3 r c a a' → Both3 r (Y.v8xpz c) (X.v8xpz a) (X.v8xpz a')
  w8 : ∀ {c a a'}, Both3 r c a a' → Both3 r (Y.w8xpz c) (X.w8xpz a) (X.w8xpz a')
  h1 : ∀ {c a a'}, Both3 r c a a' → Both3 r (Y.h1xpz c) (X.h1xpz a) (X.h1xpz a')
  h3 : ∀ {c a a'}, Both3 r c a a' → Both3 r (Y.h3xpz c) (X.h3xpz a) (X.h3xpz a')
  hf : ∀ {c a a'}, Both3 r c a a' → Both3 r (Y.hfxpz c) (X.hfxpz a) (X.hfxpz a')
  hd : ∀ {c a a'}, Both3 r c a a' → Both3 r (Y.hdxpz c) (X.hdxpz a) (X.hdxpz a')
  mulL : ∀ {c a a'} (k : Xmm E) (w : Xmm F), Both3 r c a a' → Both3 r (Y.mulpz k c) (X.mulpz w a) (X.mulpz w a')
  mulR : ∀ {c a a'} (k : Xmm E) (w : Xmm F), Both3 r c a a' → Both3 r (Y.mulpz c k) (X.mulpz a w) (X.mulpz a' w)
  muld : ∀ {c a a'} (k : Xmm E) (w : Xmm F), Both3 r c a a' → Both3 r (Y.mulpd k c) (X.mulpd w a) (X.mulpd w a')

theorem Pres.mulC (P : Pres r) {c : Xmm E} {a a' : Xmm F} (k : Xmm E) (w : Xmm F) (h : Both3 r c a a') :
    Both3 r (Cpx.mul k c) (Cpx.mul w a) (Cpx.mul w a') :=
  ⟨P.sub (P.mulL h.1) (P.mulL h.2), P.add (P.mulL h.2) (P.mulL h.1)⟩

theorem Pres.mulC' (P : Pres r) {c : Xmm E} {a a' : Xmm F} (k : Xmm E) (w : Xmm F) (h : Both3 r c a a') :
    Both3 r (Cpx.mul c k) (Cpx.mul a w) (Cpx.mul a' w) :=
  ⟨P.sub (P.mulR h.1) (P.mulR h.2), P.add (P.mulR h.1) (P.mulR h.2)⟩

theorem XmmOps.Hom.laws {Y : XmmOps E} {X : XmmOps F} (H : Y.Hom X r) (P : Pres r) {A C : Type} (d : A ≃ Xmm E) (e : C ≃ Xmm F) :
    letI := Y.arith d; letI := X.arith e; HomLaws (E := E) (A := A) (F := F) (C := C) r fun c a b => Both3 r (d c) (e a) (e b) := by
  letI := Y.arith d
  letI := X.arith e
  have fin : ∀ {x : Xmm E} {y z : Xmm F}, Both3 r x y z → Both3 r (d (d.symm x)) (e (e.symm y)) (e (e.symm z)) := by
    intro x y z h
    simpa only [Equiv.apply_symm_apply] using h
  exact
  { add := fun h h' => fin (H.add h h')
    sub := fun h h' => fin (H.sub h h')
    cnj := fun h => fin (H.cnj h)
    jx := fun h => fin (H.jx h)
    v8 := fun h => fin (H.v8 h)
    w8 := fun h => fin (H.w8 h)
    h1 := fun h => fin (H.h1 h)
    h3 := fun h => fin (H.h3 h)
    hf := fun h => fin (H.hf h)
    hd := fun h => fin (H.hd h)
    mulL := fun _ _ h => fin (H.mulL _ _ h)
    mulR := fun _ _ h => fin (H.mulR _ _ h)
    scl := fun k c h => fin (H.muld ![k, k] ![c, c] h)
    pair := fun h h' => fin ⟨h, h'⟩
    re := fun h => h.1
    im := fun h => h.2
    cmulL := fun _ _ h => fin (P.mulC _ _ h)
    cmulR := fun _ _ h => fin (P.mulC' _ _ h)
    muld := fun _ _ h => fin (H.muld _ _ h)
    zeroC := fin ⟨P.zero, P.zero⟩
    zero := P.zero
    dadd := P.add
    dsub := P.sub
    dneg := P.neg
    ddiv := fun _ _ h => P.div h }

theorem NoSse.mulL (P : Pres r) {c : Xmm E} {a a' : Xmm F} (k : Xmm E) (w : Xmm F) (h : Both3 r c a a') :
    Both3 r (NoSse.mulpz k c) (NoSse.mulpz w a) (NoSse.mulpz w a') :=
  ⟨P.sub (P.mulL h.1) (P.mulL h.2),
    P.add (P.mulL h.2) (P.mulL h.1)⟩

theorem NoSse.hom (P : Pres r) : XmmOps.Hom (NoSse.ops (F := E)) (NoSse.ops (F := F)) r where
  add h h' := ⟨P.add h.1 h'.1, P.add h.2 h'.2⟩
  sub h h' := ⟨P.sub h.1 h'.1, P.sub h.2 h'.2⟩
  cnj h := ⟨h.1, P.neg h.2⟩
  jx h := ⟨P.neg h.2, h.1⟩
  v8 h := ⟨P.mulL (P.sub h.1 h.2), P.mulL (P.add h.1 h.2)⟩
  w8 h := ⟨P.mulL (P.add h.1 h.2), P.mulL (P.sub h.2 h.1)⟩
  h1 h := NoSse.mulL P _ _ h
  h3 h := NoSse.mulL P _ _ h
  hf h := NoSse.mulL P _ _ h
  hd h := NoSse.mulL P _ _ h
  mulL k w h := NoSse.mulL P k w h
  mulR _ _ h := ⟨P.sub (P.mulR h.1) (P.mulR h.2),
      P.add (P.mulR h.1) (P.mulR h.2)⟩
  muld _ _ h := ⟨P.mulL h.1, P.mulL h.2⟩

theorem Sse.jx (P : Pres r) {c : Xmm E} {a a' : Xmm F} (h : Both3 r c a a') : Both3 r (Sse.jxpz c) (Sse.jxpz a) (Sse.jxpz a') :=
  ⟨P.neg h.2, h.1⟩

theorem Sse2.mulL (P : Pres r) {c : Xmm E} {a a' : Xmm F} (k : Xmm E) (w : Xmm F) (h : Both3 r c a a') :
    Both3 r (Sse2.mulpz k c) (Sse2.mulpz w a) (Sse2.mulpz w a') :=
  ⟨P.add (P.mulL h.1) (P.mulL (P.neg h.2)),
    P.add (P.mulL h.2) (P.mulL h.1)⟩

theorem Sse.w8 (P : Pres r) {c : Xmm E} {a a' : Xmm F} (h : Both3 r c a a') : Both3 r (Sse.w8xpz c) (Sse.w8xpz a) (Sse.w8xpz a') :=
  ⟨P.mulL (P.add h.1 h.2), P.mulL (P.add h.2 (P.neg h.1))⟩

theorem Sse2.hom (P : Pres r) : XmmOps.Hom (Sse2.ops (F := E)) (Sse2.ops (F := F)) r where
  add h h' := ⟨P.add h.1 h'.1, P.add h.2 h'.2⟩
  sub h h' := ⟨P.sub h.1 h'.1, P.sub h.2 h'.2⟩
  cnj h := ⟨h.1, P.neg h.2⟩
  jx h := Sse.jx P h
  v8 h := ⟨P.mulL (P.add h.1 (P.neg h.2)), P.mulL (P.add h.2 h.1)⟩
  w8 h := Sse.w8 P h
  h1 h := Sse2.mulL P _ _ h
  h3 h := Sse2.mulL P _ _ h
  hf h := Sse2.mulL P _ _ h
  hd h := Sse2.mulL P _ _ h
  mulL k w h := Sse2.mulL P k w h
  mulR _ _ h := ⟨P.add (P.mulR h.1) (P.mulR h.2),
      P.add (P.mulR h.1) (P.mulR h.2)⟩
  muld _ _ h := ⟨P.mulL h.1, P.mulL h.2⟩

theorem Sse3.mulL (P : Pres r) (fma : Bool) {c : Xmm E} {a a' : Xmm F} (k : Xmm E) (w : Xmm F) (h : Both3 r c a a') :
    Both3 r (Sse3.mulpz fma k c) (Sse3.mulpz fma w a) (Sse3.mulpz fma w a') := by
  cases fma
  · exact ⟨P.sub (P.mulL h.1) (P.mulL h.2),
      P.add (P.mulL h.2) (P.mulL h.1)⟩
  · exact ⟨P.fmsL h.1 (P.mulL h.2), P.fmaL h.2 (P.mulL h.1)⟩

theorem Sse3.mulR (P : Pres r) (fma : Bool) {c : Xmm E} {a a' : Xmm F} (k : Xmm E) (w : Xmm F) (h : Both3 r c a a') :
    Both3 r (Sse3.mulpz fma c k) (Sse3.mulpz fma a w) (Sse3.mulpz fma a' w) := by
  cases fma
  · exact ⟨P.sub (P.mulR h.1) (P.mulR h.2),
      P.add (P.mulR h.1) (P.mulR h.2)⟩
  · exact ⟨P.fmsR h.1 (P.mulR h.2), P.fmaR h.1 (P.mulR h.2)⟩

theorem Sse3.hom (P : Pres r) (fma : Bool) : XmmOps.Hom (Sse3.ops (F := E) fma) (Sse3.ops (F := F) fma) r where
  add h h' := ⟨P.add h.1 h'.1, P.add h.2 h'.2⟩
  sub h h' := ⟨P.sub h.1 h'.1, P.sub h.2 h'.2⟩
  cnj h := ⟨h.1, P.neg h.2⟩
  jx h := Sse.jx P h
  v8 h := ⟨P.mulL (P.sub h.1 h.2), P.mulL (P.add h.2 h.1)⟩
  w8 h := Sse.w8 P h
  h1 h := Sse3.mulL P fma _ _ h
  h3 h := Sse3.mulL P fma _ _ h
  hf h := Sse3.mulL P fma _ _ h
  hd h := Sse3.mulL P fma _ _ h
  mulL k w h := Sse3.mulL P fma k w h
  mulR k w h := Sse3.mulR P fma k w h
  muld _ _ h := ⟨P.mulL h.1, P.mulL h.2⟩

theorem Target.hom (P : Pres r) (i : Target) : (i.xmm E).Hom (i.xmm F) r := by
  unfold Target.xmm
  split
  · split
    · exact Sse3.hom P _
    · exact Sse2.hom P
  · exact NoSse.hom P

theorem Target.homLaws (P : Pres r) (i : Target) {A C : Type} (d : A ≃ Xmm E) (e : C ≃ Xmm F) :
    letI := (i.xmm E).arith d; letI := (i.xmm F).arith e
    HomLaws (E := E) (A := A) (F := F) (C := C) r fun c a b => Both3 r (d c) (e a) (e b) :=
  (Target.hom P i).laws P d e

end OTFFT
