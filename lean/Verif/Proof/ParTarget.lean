/-
On every instruction set, the operations on complex numbers preserve a relation between two arithmetics that the operations
on doubles preserve.
-/
import Verif.Spec.Flags
import Verif.Proof.HomTarget
import Verif.Proof.Par

namespace OTFFT

open Intrin

variable {E F : Type} [FArith E] [FArith F] {r : E → F → Prop}

/-- both components are related -/
abbrev BothP (r : E → F → Prop) (c : Xmm E) (a : Xmm F) : Prop := BothOf r c a

/-- what is to be shown about the primitives -/
structure XmmOps.Par (Y : XmmOps E) (X : XmmOps F) (r : E → F → Prop) : Prop where
  add : ∀ {c d a b}, BothP r c a → BothP r d b → BothP r (Y.addpz c d) (X.addpz a b)
  sub : ∀ {c d a b}, BothP r c a → BothP r d b → BothP r (Y.subpz c d) (X.subpz a b)
  cnj : ∀ {c a}, BothP r c a → BothP r (Y.cnjpz c) (X.cnjpz a)
  jx : ∀ {c a}, BothP r c a → BothP r (Y.jxpz c) (X.jxpz a)
  v8 : ∀ {c a}, BothP r c a → BothP r (Y.v8xpz c) (X.v8xpz a)
  w8 : ∀ {c a}, BothP r c a → BothP r (Y.w8xpz c) (X.w8xpz a)
  h1 : ∀ {c a}, BothP r c a → BothP r (Y.h1xpz c) (X.h1xpz a)
  h3 : ∀ {c a}, BothP r c a → BothP r (Y.h3xpz c) (X.h3xpz a)
  hf : ∀ {c a}, BothP r c a → BothP r (Y.hfxpz c) (X.hfxpz a)
  hd : ∀ {c a}, BothP r c a → BothP r (Y.hdxpz c) (X.hdxpz a)
  mul : ∀ {c d a b}, BothP r c a → BothP r d b → BothP r (Y.mulpz c d) (X.mulpz a b)
  muld : ∀ {c d a b}, BothP r c a → BothP r d b → BothP r (Y.mulpd c d) (X.mulpd a b)

theorem Linked.mulC (P : Linked r) {c d : Xmm E} {a b : Xmm F} (h : BothP r c a) (h' : BothP r d b) :
    BothP r (Cpx.mul c d) (Cpx.mul a b) :=
  ⟨P.sub (P.mul h.1 h'.1) (P.mul h.2 h'.2), P.add (P.mul h.1 h'.2) (P.mul h.2 h'.1)⟩

theorem XmmOps.Par.laws {Y : XmmOps E} {X : XmmOps F} (H : Y.Par X r) (P : Linked r) :
    letI := Y.arith (Equiv.refl _); letI := X.arith (Equiv.refl _)
    ParLaws (E := E) (A := Xmm E) (F := F) (C := Xmm F) r (BothP r) := by
  letI := Y.arith (Equiv.refl _)
  letI := X.arith (Equiv.refl _)
  exact
  { add := fun h h' => H.add h h'
    sub := fun h h' => H.sub h h'
    cnj := fun h => H.cnj h
    jx := fun h => H.jx h
    v8 := fun h => H.v8 h
    w8 := fun h => H.w8 h
    h1 := fun h => H.h1 h
    h3 := fun h => H.h3 h
    hf := fun h => H.hf h
    hd := fun h => H.hd h
    mul := fun h h' => H.mul h h'
    cmul := fun h h' => P.mulC h h'
    muld := fun h h' => H.muld h h'
    scl := fun {k w c a} hk h => H.muld (c := ![k, k]) (a := ![w, w]) ⟨hk, hk⟩ h
    pair := fun h h' => ⟨h, h'⟩
    re := fun h => h.1
    im := fun h => h.2
    expj := fun h => ⟨P.mul (P.nat 1) (P.cos h), P.mul (P.nat 1) (P.sin h)⟩
    dadd := P.add
    dsub := P.sub
    dmul := P.mul
    ddiv := P.div
    dneg := P.neg
    dsqrt := P.sqrt
    dcos := P.cos
    dsin := P.sin
    pi := P.pi
    nat := P.nat
    msq := P.mysqrt }

theorem NoSse.par (P : Linked r) : XmmOps.Par (NoSse.ops (F := E)) (NoSse.ops (F := F)) r := by
  have hm : ∀ {c d : Xmm E} {a b : Xmm F}, BothP r c a → BothP r d b → BothP r (NoSse.mulpz c d) (NoSse.mulpz a b) :=
    fun h h' => ⟨P.sub (P.mul h.1 h'.1) (P.mul h.2 h'.2), P.add (P.mul h.1 h'.2) (P.mul h.2 h'.1)⟩
  exact
  { add := fun h h' => ⟨P.add h.1 h'.1, P.add h.2 h'.2⟩
    sub := fun h h' => ⟨P.sub h.1 h'.1, P.sub h.2 h'.2⟩
    cnj := fun h => ⟨h.1, P.neg h.2⟩
    jx := fun h => ⟨P.neg h.2, h.1⟩
    v8 := fun h => ⟨P.mul P.sqrt1_2 (P.sub h.1 h.2), P.mul P.sqrt1_2 (P.add h.1 h.2)⟩
    w8 := fun h => ⟨P.mul P.sqrt1_2 (P.add h.1 h.2), P.mul P.sqrt1_2 (P.sub h.2 h.1)⟩
    h1 := fun h => hm ⟨P.h1x, P.h1y⟩ h
    h3 := fun h => hm ⟨P.neg P.h1y, P.neg P.h1x⟩ h
    hf := fun h => hm ⟨P.h1x, P.neg P.h1y⟩ h
    hd := fun h => hm ⟨P.neg P.h1y, P.h1x⟩ h
    mul := hm
    muld := fun h h' => ⟨P.mul h.1 h'.1, P.mul h.2 h'.2⟩ }

theorem Sse.jxP (P : Linked r) {c : Xmm E} {a : Xmm F} (h : BothP r c a) : BothP r (Sse.jxpz c) (Sse.jxpz a) :=
  ⟨P.neg h.2, h.1⟩

theorem Sse.w8P (P : Linked r) {c : Xmm E} {a : Xmm F} (h : BothP r c a) : BothP r (Sse.w8xpz c) (Sse.w8xpz a) :=
  ⟨P.mul P.sqrt1_2 (P.add h.1 h.2), P.mul P.sqrt1_2 (P.add h.2 (P.neg h.1))⟩

theorem Sse2.par (P : Linked r) : XmmOps.Par (Sse2.ops (F := E)) (Sse2.ops (F := F)) r := by
  have hm : ∀ {c d : Xmm E} {a b : Xmm F}, BothP r c a → BothP r d b → BothP r (Sse2.mulpz c d) (Sse2.mulpz a b) :=
    fun h h' => ⟨P.add (P.mul h.1 h'.1) (P.mul h.2 (P.neg h'.2)), P.add (P.mul h.1 h'.2) (P.mul h.2 h'.1)⟩
  exact
  { add := fun h h' => ⟨P.add h.1 h'.1, P.add h.2 h'.2⟩
    sub := fun h h' => ⟨P.sub h.1 h'.1, P.sub h.2 h'.2⟩
    cnj := fun h => ⟨h.1, P.neg h.2⟩
    jx := fun h => Sse.jxP P h
    v8 := fun h => ⟨P.mul P.sqrt1_2 (P.add h.1 (P.neg h.2)), P.mul P.sqrt1_2 (P.add h.2 h.1)⟩
    w8 := fun h => Sse.w8P P h
    h1 := fun h => hm ⟨P.h1x, P.h1y⟩ h
    h3 := fun h => hm ⟨P.neg P.h1y, P.neg P.h1x⟩ h
    hf := fun h => hm ⟨P.h1x, P.neg P.h1y⟩ h
    hd := fun h => hm ⟨P.neg P.h1y, P.h1x⟩ h
    mul := hm
    muld := fun h h' => ⟨P.mul h.1 h'.1, P.mul h.2 h'.2⟩ }

theorem Sse3.par (P : Linked r) (fma : Bool) : XmmOps.Par (Sse3.ops (F := E) fma) (Sse3.ops (F := F) fma) r := by
  have hm : ∀ {c d : Xmm E} {a b : Xmm F}, BothP r c a → BothP r d b → BothP r (Sse3.mulpz fma c d) (Sse3.mulpz fma a b) := by
    intro c d a b h h'
    cases fma
    · exact ⟨P.sub (P.mul h.1 h'.1) (P.mul h.2 h'.2), P.add (P.mul h.1 h'.2) (P.mul h.2 h'.1)⟩
    · exact ⟨P.fms h.1 h'.1 (P.mul h.2 h'.2), P.fma h.1 h'.2 (P.mul h.2 h'.1)⟩
  exact
  { add := fun h h' => ⟨P.add h.1 h'.1, P.add h.2 h'.2⟩
    sub := fun h h' => ⟨P.sub h.1 h'.1, P.sub h.2 h'.2⟩
    cnj := fun h => ⟨h.1, P.neg h.2⟩
    jx := fun h => Sse.jxP P h
    v8 := fun h => ⟨P.mul P.sqrt1_2 (P.sub h.1 h.2), P.mul P.sqrt1_2 (P.add h.2 h.1)⟩
    w8 := fun h => Sse.w8P P h
    h1 := fun h => hm ⟨P.h1x, P.h1y⟩ h
    h3 := fun h => hm ⟨P.neg P.h1y, P.neg P.h1x⟩ h
    hf := fun h => hm ⟨P.h1x, P.neg P.h1y⟩ h
    hd := fun h => hm ⟨P.neg P.h1y, P.h1x⟩ h
    mul := hm
    muld := fun h h' => ⟨P.mul h.1 h'.1, P.mul h.2 h'.2⟩ }

theorem Target.par (P : Linked r) (i : Target) : (i.xmm E).Par (i.xmm F) r := by
  unfold Target.xmm
  split
  · split
    · exact Sse3.par P _
    · exact Sse2.par P
  · exact NoSse.par P

theorem Target.parLaws (P : Linked r) (i : Target) :
    letI := i.arith E; letI := i.arith F
    ParLaws (E := E) (A := Xmm E) (F := F) (C := Xmm F) r (BothP r) :=
  (Target.par P i).laws P

end OTFFT
