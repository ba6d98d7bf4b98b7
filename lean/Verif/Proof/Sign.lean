/-
Exact symmetries: complex conjugation exchanges forward and inverse transforms, multiplication by i commutes with them.
-/
import Verif.Spec.Sign
import Verif.Proof.Hom
import Verif.Proof.Dbl

namespace OTFFT

open Intrin

variable {F : Type} [FArith F] {r : Bool → F → F → Prop}

namespace Signed
variable {f : Bool} {a a' b b' c c' : F}

theorem cast {g : Bool} (h : r f a b) (e : f = g) : r g a b := e ▸ h
theorem negL (S : Signed r) (h : r f a b) : r (!f) (fneg a) b := S.symm (S.neg (S.symm h))
theorem negB (S : Signed r) (h : r f a b) : r f (fneg a) (fneg b) := cast (S.neg (S.negL h)) (by cases f <;> rfl)
theorem ltrans (S : Signed r) (h : r false a b) (h' : r f b c) : r f a c := S.symm (S.trans (S.symm h') (S.symm h))
theorem subadd (S : Signed r) (h : r f a a') (h' : r (!f) b b') : r f (fsub a b) (fadd a' b') :=
  S.ltrans (S.sub a b) (S.add h (cast (S.negL h') (by cases f <;> rfl)))
theorem addsub (S : Signed r) (h : r f a a') (h' : r (!f) b b') : r f (fadd a b) (fsub a' b') :=
  S.symm (S.subadd (S.symm h) (S.symm h'))
theorem subsub (S : Signed r) (h : r f a a') (h' : r f b b') : r f (fsub a b) (fsub a' b') :=
  S.ltrans (S.sub a b) (S.trans (S.add h (S.negB h')) (S.symm (S.sub a' b')))
theorem addc (S : Signed r) (h : r f a a') (h' : r f b b') : r f (fadd a b) (fadd b' a') := S.trans (S.add h h') (S.add_comm _ _)
theorem subaddc (S : Signed r) (h : r f a a') (h' : r (!f) b b') : r f (fsub a b) (fadd b' a') := S.trans (S.subadd h h') (S.add_comm _ _)
theorem addsubc (S : Signed r) (h : r (!f) a a') (h' : r f b b') : r f (fadd a b) (fsub b' a') :=
  S.symm (S.subaddc (S.symm h') (S.symm h))
/-- `a - b` and `b' - a'` -/
theorem subsubc (S : Signed r) (h : r (!f) a a') (h' : r (!f) b b') : r f (fsub a b) (fsub b' a') := by
  have h1 := S.addsubc (f := f) h (b := fneg b) (b' := b') (cast (S.negL h') (by cases f <;> rfl))
  exact S.ltrans (S.sub a b) h1
theorem mulL (S : Signed r) (k : F) (h : r f a a') : r f (fmul k a) (fmul k a') := cast (S.mul (S.refl k) h) (by cases f <;> rfl)
theorem mulR (S : Signed r) (k : F) (h : r f a a') : r f (fmul a k) (fmul a' k) := cast (S.mul h (S.refl k)) (by cases f <;> rfl)
theorem fmsS (S : Signed r) {g : Bool} (h : r f a a') (h' : r g b b') (h'' : r (f != g) c c') :
    r (f != g) (ffms a b c) (ffms a' b' c') :=
  S.ltrans (S.fms a b c) (S.trans (S.fma h h' (S.negB h'')) (S.symm (S.fms a' b' c')))
theorem fmsfma (S : Signed r) {g : Bool} (h : r f a a') (h' : r g b b') (h'' : r (!(f != g)) c c') :
    r (f != g) (ffms a b c) (ffma a' b' c') :=
  S.ltrans (S.fms a b c) (S.fma h h' (cast (S.negL h'') (by cases f <;> cases g <;> rfl)))
theorem fmafms (S : Signed r) {g : Bool} (h : r f a a') (h' : r g b b') (h'' : r (!(f != g)) c c') :
    r (f != g) (ffma a b c) (ffms a' b' c') :=
  S.symm (S.fmsfma (S.symm h) (S.symm h') (S.symm h''))

end Signed

/-! ### conjugation -/

/-- `b` is the conjugate of `a` (`s = false`) or its opposite -/
def Cj (r : Bool → F → F → Prop) (s : Bool) (a b : Xmm F) : Prop := r s (a 0) (b 0) ∧ r (!s) (a 1) (b 1)

/-- what is to be shown of the primitives -/
structure ConjLaws {D C : Type} [DArith D] [CArith D C] (Q : Bool → C → C → Prop) : Prop where
  add : ∀ {s a a' b b'}, Q s a a' → Q s b b' → Q s (addpz a b) (addpz a' b')
  sub : ∀ {s a a' b b'}, Q s a a' → Q s b b' → Q s (subpz a b) (subpz a' b')
  addsub : ∀ {s a a' b b'}, Q s a a' → Q (!s) b b' → Q s (addpz a b) (subpz a' b')
  subadd : ∀ {s a a' b b'}, Q s a a' → Q (!s) b b' → Q s (subpz a b) (addpz a' b')
  jx : ∀ {s a a'}, Q (!s) a a' → Q s (jxpz a) (jxpz a')
  v8 : ∀ {s a a'}, Q s a a' → Q s (v8xpz a) (w8xpz a')
  w8 : ∀ {s a a'}, Q s a a' → Q s (w8xpz a) (v8xpz a')
  h1 : ∀ {s a a'}, Q s a a' → Q s (h1xpz a) (hfxpz a')
  h3 : ∀ {s a a'}, Q s a a' → Q s (h3xpz a) (hdxpz a')
  hf : ∀ {s a a'}, Q s a a' → Q s (hfxpz a) (h1xpz a')
  hd : ∀ {s a a'}, Q s a a' → Q s (hdxpz a) (h3xpz a')
  mul : ∀ {s k k' a a'}, Q false k k' → Q s a a' → Q s (mulpz k a) (mulpz k' a')
  scl : ∀ {s a a'} (k : D), Q s a a' → Q s (scl k a) (scl k a')
  tab : ∀ w, Q false w (cnjpz w)

/-- the same for the primitives of an instruction set -/
structure XmmOps.Conj (X : XmmOps F) (r : Bool → F → F → Prop) : Prop where
  add : ∀ {s a a' b b'}, Cj r s a a' → Cj r s b b' → Cj r s (X.addpz a b) (X.addpz a' b')
  sub : ∀ {s a a' b b'}, Cj r s a a' → Cj r s b b' → Cj r s (X.subpz a b) (X.subpz a' b')
  addsub : ∀ {s a a' b b'}, Cj r s a a' → Cj r (!s) b b' → Cj r s (X.addpz a b) (X.subpz a' b')
  subadd : ∀ {s a a' b b'}, Cj r s a a' → Cj r (!s) b b' → Cj r s (X.subpz a b) (X.addpz a' b')
  jx : ∀ {s a a'}, Cj r (!s) a a' → Cj r s (X.jxpz a) (X.jxpz a')
  v8 : ∀ {s a a'}, Cj r s a a' → Cj r s (X.v8xpz a) (X.w8xpz a')
  w8 : ∀ {s a a'}, Cj r s a a' → Cj r s (X.w8xpz a) (X.v8xpz a')
  h1 : ∀ {s a a'}, Cj r s a a' → Cj r s (X.h1xpz a) (X.hfxpz a')
  h3 : ∀ {s a a'}, Cj r s a a' → Cj r s (X.h3xpz a) (X.hdxpz a')
  hf : ∀ {s a a'}, Cj r s a a' → Cj r s (X.hfxpz a) (X.h1xpz a')
  hd : ∀ {s a a'}, Cj r s a a' → Cj r s (X.hdxpz a) (X.h3xpz a')
  mul : ∀ {s k k' a a'}, Cj r false k k' → Cj r s a a' → Cj r s (X.mulpz k a) (X.mulpz k' a')
  muld : ∀ {s a a'} (k : F), Cj r s a a' → Cj r s (X.mulpd ![k, k] a) (X.mulpd ![k, k] a')
  tab : ∀ w, Cj r false w (X.cnjpz w)

section conj
variable {s : Bool} {a a' b b' k k' : Xmm F}

theorem Cj.nn (h : Cj r s a a') : r (!!s) (a 0) (a' 0) := Signed.cast h.1 (by cases s <;> rfl)

theorem NoSse.mul_conj (S : Signed r) (hk : Cj r false k k') (h : Cj r s a a') : Cj r s (NoSse.mulpz k a) (NoSse.mulpz k' a') := by
  cases s
  · exact ⟨S.subsub (S.mul hk.1 h.1) (S.mul hk.2 h.2), S.add (S.mul hk.1 h.2) (S.mul hk.2 h.1)⟩
  · exact ⟨S.subsub (S.mul hk.1 h.1) (S.mul hk.2 h.2), S.add (S.mul hk.1 h.2) (S.mul hk.2 h.1)⟩

theorem Sse2.mul_conj (S : Signed r) (hk : Cj r false k k') (h : Cj r s a a') : Cj r s (Sse2.mulpz k a) (Sse2.mulpz k' a') := by
  cases s
  · exact ⟨S.add (S.mul hk.1 h.1) (S.mul hk.2 (S.negB h.2)), S.add (S.mul hk.1 h.2) (S.mul hk.2 h.1)⟩
  · exact ⟨S.add (S.mul hk.1 h.1) (S.mul hk.2 (S.negB h.2)), S.add (S.mul hk.1 h.2) (S.mul hk.2 h.1)⟩

theorem Sse3.mul_conj (S : Signed r) (fma : Bool) (hk : Cj r false k k') (h : Cj r s a a') :
    Cj r s (Sse3.mulpz fma k a) (Sse3.mulpz fma k' a') := by
  cases fma
  · cases s
    · exact ⟨S.subsub (S.mul hk.1 h.1) (S.mul hk.2 h.2), S.add (S.mul hk.1 h.2) (S.mul hk.2 h.1)⟩
    · exact ⟨S.subsub (S.mul hk.1 h.1) (S.mul hk.2 h.2), S.add (S.mul hk.1 h.2) (S.mul hk.2 h.1)⟩
  · cases s
    · exact ⟨S.fmsS hk.1 h.1 (S.mul (f := true) hk.2 h.2), S.fma hk.1 h.2 (S.mul (f := true) hk.2 h.1)⟩
    · exact ⟨S.fmsS hk.1 h.1 (S.mul (f := true) hk.2 h.2), S.fma hk.1 h.2 (S.mul (f := true) hk.2 h.1)⟩

theorem cj_h1 (S : Signed r) : Cj r false (![h1x, h1y] : Xmm F) ![h1x, fneg h1y] := ⟨S.refl _, S.neg (S.refl _)⟩
theorem cj_h3 (S : Signed r) : Cj r false (![fneg h1y, fneg h1x] : Xmm F) ![fneg h1y, h1x] := ⟨S.refl _, S.negL (S.refl _)⟩
theorem cj_hf (S : Signed r) : Cj r false (![h1x, fneg h1y] : Xmm F) ![h1x, h1y] := ⟨S.refl _, S.negL (S.refl _)⟩
theorem cj_hd (S : Signed r) : Cj r false (![fneg h1y, h1x] : Xmm F) ![fneg h1y, fneg h1x] := ⟨S.refl _, S.neg (S.refl _)⟩

theorem NoSse.conj (S : Signed r) : (NoSse.ops (F := F)).Conj r where
  add h h' := ⟨S.add h.1 h'.1, S.add h.2 h'.2⟩
  sub h h' := ⟨S.subsub h.1 h'.1, S.subsub h.2 h'.2⟩
  addsub h h' := ⟨S.addsub h.1 h'.1, S.addsub h.2 h'.2⟩
  subadd h h' := ⟨S.subadd h.1 h'.1, S.subadd h.2 h'.2⟩
  jx {s _ _} h := ⟨S.negB (Signed.cast h.2 (by cases s <;> rfl)), h.1⟩
  v8 h := ⟨S.mulL _ (S.subadd h.1 h.2), S.mulL _ (S.addsubc h.nn h.2)⟩
  w8 h := ⟨S.mulL _ (S.addsub h.1 h.2), S.mulL _ (S.subaddc h.2 h.nn)⟩
  h1 h := NoSse.mul_conj S (cj_h1 S) h
  h3 h := NoSse.mul_conj S (cj_h3 S) h
  hf h := NoSse.mul_conj S (cj_hf S) h
  hd h := NoSse.mul_conj S (cj_hd S) h
  mul hk h := NoSse.mul_conj S hk h
  muld k h := ⟨S.mulL _ h.1, S.mulL _ h.2⟩
  tab w := ⟨S.refl _, S.neg (S.refl _)⟩

theorem Sse2.conj (S : Signed r) : (Sse2.ops (F := F)).Conj r where
  add h h' := ⟨S.add h.1 h'.1, S.add h.2 h'.2⟩
  sub h h' := ⟨S.subsub h.1 h'.1, S.subsub h.2 h'.2⟩
  addsub h h' := ⟨S.addsub h.1 h'.1, S.addsub h.2 h'.2⟩
  subadd h h' := ⟨S.subadd h.1 h'.1, S.subadd h.2 h'.2⟩
  jx {s _ _} h := ⟨S.negB (Signed.cast h.2 (by cases s <;> rfl)), h.1⟩
  v8 {s a a'} h := ⟨S.mulL _ (S.add h.1 (Signed.cast (S.negL h.2) (by cases s <;> rfl))), S.mulL _ (S.add h.2 (S.neg h.1))⟩
  w8 {s a a'} h := ⟨S.mulL _ (S.add h.1 (Signed.cast (S.neg h.2) (by cases s <;> rfl))), S.mulL _ (S.add h.2 (S.negL h.1))⟩
  h1 h := Sse2.mul_conj S (cj_h1 S) h
  h3 h := Sse2.mul_conj S (cj_h3 S) h
  hf h := Sse2.mul_conj S (cj_hf S) h
  hd h := Sse2.mul_conj S (cj_hd S) h
  mul hk h := Sse2.mul_conj S hk h
  muld k h := ⟨S.mulL _ h.1, S.mulL _ h.2⟩
  tab w := ⟨S.refl _, S.neg (S.refl _)⟩

theorem Sse3.conj (S : Signed r) (fma : Bool) : (Sse3.ops (F := F) fma).Conj r where
  add h h' := ⟨S.add h.1 h'.1, S.add h.2 h'.2⟩
  sub h h' := ⟨S.subsub h.1 h'.1, S.subsub h.2 h'.2⟩
  addsub h h' := ⟨S.addsub h.1 h'.1, S.addsub h.2 h'.2⟩
  subadd h h' := ⟨S.subadd h.1 h'.1, S.subadd h.2 h'.2⟩
  jx {s _ _} h := ⟨S.negB (Signed.cast h.2 (by cases s <;> rfl)), h.1⟩
  v8 {s a a'} h := ⟨S.mulL _ (S.subadd h.1 h.2), S.mulL _ (S.add h.2 (S.neg h.1))⟩
  w8 {s a a'} h := ⟨S.mulL _ (S.addsub h.1 h.2), S.mulL _ (S.add h.2 (S.negL h.1))⟩
  h1 h := Sse3.mul_conj S fma (cj_h1 S) h
  h3 h := Sse3.mul_conj S fma (cj_h3 S) h
  hf h := Sse3.mul_conj S fma (cj_hf S) h
  hd h := Sse3.mul_conj S fma (cj_hd S) h
  mul hk h := Sse3.mul_conj S fma hk h
  muld k h := ⟨S.mulL _ h.1, S.mulL _ h.2⟩
  tab w := ⟨S.refl _, S.neg (S.refl _)⟩

theorem Target.conj (S : Signed r) (i : Target) : (i.xmm F).Conj r := by
  unfold Target.xmm
  split
  · split
    · exact Sse3.conj S _
    · exact Sse2.conj S
  · exact NoSse.conj S

theorem Target.conjLaws (S : Signed r) (i : Target) : letI := i.arith F; ConjLaws (D := F) (C := Xmm F) (Cj r) := by
  letI := i.arith F
  have H := Target.conj S i
  exact
  { add := fun h h' => H.add h h'
    sub := fun h h' => H.sub h h'
    addsub := fun h h' => H.addsub h h'
    subadd := fun h h' => H.subadd h h'
    jx := fun h => H.jx h
    v8 := fun h => H.v8 h
    w8 := fun h => H.w8 h
    h1 := fun h => H.h1 h
    h3 := fun h => H.h3 h
    hf := fun h => H.hf h
    hd := fun h => H.hd h
    mul := fun h h' => H.mul h h'
    scl := fun k h => H.muld k h
    tab := H.tab }

end conj


/-! ### the transforms -/

namespace ConjLaws
variable {D C : Type} [DArith D] [CArith D C] {Q : Bool → C → C → Prop} {mode : ScaleMode} {v v' : ℕ → C}

open LinLaws (dif_stage dit_stage)

theorem scale (L : ConjLaws Q) {s : Bool} {a a' : C} (N : ℕ) (mode : ScaleMode) (h : Q s a a') :
    Q s (scalepz N mode a) (scalepz N mode a') := by
  cases mode
  · exact h
  · exact L.scl _ h
  · exact L.scl _ h

/-- two butterflies, the second one of the conjugates -/
def Bfly (Q : Bool → C → C → Prop) {q : ℕ} (B B' : BF q) : Prop :=
  ∀ x x' : Fin q → C, (∀ j, Q false (x j) (x' j)) → ∀ j, Q false (B.fn x j) (B'.fn x' j)

macro "conj_steps" L:term "," h:term : tactic =>
  `(tactic| repeat' first
    | exact $h _
    | apply ConjLaws.add $L
    | apply ConjLaws.sub $L
    | apply ConjLaws.addsub $L
    | apply ConjLaws.subadd $L
    | apply ConjLaws.jx $L
    | apply ConjLaws.v8 $L
    | apply ConjLaws.w8 $L
    | apply ConjLaws.h1 $L
    | apply ConjLaws.h3 $L
    | apply ConjLaws.hf $L
    | apply ConjLaws.hd $L)

theorem bfly2 (L : ConjLaws Q) : Bfly Q bf2 bf2 := by
  intro x x' h j
  fin_cases j
  · exact L.add (h 0) (h 1)
  · exact L.sub (h 0) (h 1)

theorem bfly4 (L : ConjLaws Q) : Bfly Q (bf4 false) (bf4 true) := by
  intro x x' h j
  fin_cases j <;> (
    simp only [bf4, bf4fwd, bf4inv, if_true, if_false, Bool.false_eq_true]
    simp only [Fin.zero_eta, Fin.mk_one, Fin.reduceFinMk, Matrix.cons_val]
    conj_steps L, h)

theorem bfly8 (L : ConjLaws Q) : Bfly Q (bf8 false) (bf8 true) := by
  intro x x' h j
  fin_cases j <;> (
    simp only [bf8, bf8fwd, bf8inv, if_true, if_false, Bool.false_eq_true]
    simp only [Fin.zero_eta, Fin.mk_one, Fin.reduceFinMk, Matrix.cons_val]
    conj_steps L, h)

theorem bfly16 (L : ConjLaws Q) : Bfly Q (bf16 false) (bf16 true) := by
  intro x x' h j
  fin_cases j <;> (
    simp only [bf16, bf16fwd, bf16inv, if_true, if_false, Bool.false_eq_true]
    simp only [Fin.zero_eta, Fin.mk_one, Fin.reduceFinMk, Matrix.cons_val]
    conj_steps L, h)

theorem difOut_conj (L : ConjLaws Q) {q : ℕ} {B B' : BF q} (hB : Bfly Q B B') {T T' : Fin (q - 1) → C} (hT : ∀ k, Q false (T k) (T' k))
    (xs xs' : Fin q → C) (h : ∀ j, Q false (xs j) (xs' j)) (i : Fin q) : Q false (difOut B xs T i) (difOut B' xs' T' i) := by
  unfold difOut
  by_cases h0 : i.val = 0
  · rw [dif_pos h0, dif_pos h0]
    exact hB xs xs' h i
  · rw [dif_neg h0, dif_neg h0]
    exact L.mul (hT _) (hB xs xs' h i)

theorem ditOut_conj (L : ConjLaws Q) {q : ℕ} {B B' : BF q} (hB : Bfly Q B B') {T T' : Fin (q - 1) → C} (hT : ∀ k, Q false (T k) (T' k))
    (xs xs' : Fin q → C) (h : ∀ j, Q false (xs j) (xs' j)) (i : Fin q) : Q false (ditOut B xs T i) (ditOut B' xs' T' i) := by
  unfold ditOut
  refine hB _ _ (fun j => ?_) i
  by_cases h0 : j.val = 0
  · simp only [h0, dite_true]; exact h j
  · simp only [h0, dite_false]; exact L.mul (hT _) (h j)

section stage
variable {q m s N : ℕ} [NeZero q]

theorem dif_conj {G G' : ℕ → (Fin q → C) → Fin q → C} (hN : N = q * m * s)
    (hG : ∀ p < m, ∀ xs xs', (∀ j, Q false (xs j) (xs' j)) → ∀ i, Q false (G p xs i) (G' p xs' i))
    (hv : ∀ t < N, Q false (v t) (v' t)) : ∀ t < N, Q false (difPure q m s G v t) (difPure q m s G' v' t) :=
  dif_stage (R := fun a b _ => Q false a b) (u := v) (v := v') (v' := v') hN (fun p hp ys xs _ h i => hG p hp ys xs h i) hv

theorem dit_conj {G G' : ℕ → (Fin q → C) → Fin q → C} (hN : N = q * m * s)
    (hG : ∀ p < m, ∀ xs xs', (∀ j, Q false (xs j) (xs' j)) → ∀ i, Q false (G p xs i) (G' p xs' i))
    (hv : ∀ t < N, Q false (v t) (v' t)) : ∀ t < N, Q false (ditPure q m s G v t) (ditPure q m s G' v' t) :=
  dit_stage (R := fun a b _ => Q false a b) (u := v) (v := v') (v' := v') hN (fun p hp ys xs _ h i => hG p hp ys xs h i) hv

end stage

section stock
variable {N : ℕ}

theorem endPure_conj (L : ConjLaws Q) {n s : ℕ} (hn : n = 2 ∨ n = 4 ∨ n = 8 ∨ n = 16) (hN : N = n * s)
    (hv : ∀ t < N, Q false (v t) (v' t)) : ∀ t < N, Q false (endPure false mode n s v t) (endPure true mode n s v' t) := by
  intro t ht
  have key : ∀ {q : ℕ} [NeZero q] {B B' : BF q}, Bfly Q B B' → N = q * s →
      Q false (difPure q 1 s (endG B (q * s) mode) v t) (difPure q 1 s (endG B' (q * s) mode) v' t) := fun hB hN =>
    dif_conj (by rw [hN]; ring) (fun _ _ _ _ h i => hB _ _ (fun j => L.scale _ mode (h j)) i) hv t ht
  unfold endPure
  rcases hn with rfl | rfl | rfl | rfl
  · exact key L.bfly2 hN
  · exact key L.bfly4 hN
  · exact key L.bfly8 hN
  · exact key L.bfly16 hN

section recs
variable {q e : ℕ} [NeZero q] {B B' : BF q} {T T' : ℕ → Fin (q - 1) → C}

theorem difRec_conj (L : ConjLaws Q) (hB : Bfly Q B B') (hT : ∀ p k, Q false (T p k) (T' p k)) (hq : q = 2 ^ e) (e2 : 2 ≤ e) (e4 : e ≤ 4) (l : ℕ) :
    ∀ {n s : ℕ} {v v' : ℕ → C}, n = 2 ^ l → 1 ≤ l → N = n * s → (∀ t < N, Q false (v t) (v' t)) →
      ∀ t < N, Q false (difRec q B false T mode n s v t) (difRec q B' true T' mode n s v' t) := by
  induction l using Nat.strong_induction_on with
  | _ l ih =>
    intro n s v v' hn hl hN hv t ht
    have hr := LinLaws.le16 hq e2 e4
    rw [difRec.eq_def q B false T mode n s v, difRec.eq_def q B' true T' mode n s v']
    by_cases hc : n ≤ q ∨ q < 2
    · rw [dif_pos hc, dif_pos hc]
      have hnr : n ≤ 16 := by omega
      exact L.endPure_conj (by rw [hn] at hnr ⊢; exact pow_le_16 hl hnr) hN hv t ht
    · rw [dif_neg hc, dif_neg hc]
      obtain ⟨hel, hd, hN1, hN2⟩ := LinLaws.split hq hn hN (by omega)
      exact ih (l - e) (by omega) hd (by omega) hN2 (dif_conj hN1 (fun p _ xs xs' h i => L.difOut_conj hB (fun k => hT _ k) xs xs' h i) hv) t ht

theorem ditRec_conj (L : ConjLaws Q) (hB : Bfly Q B B') (hT : ∀ p k, Q false (T p k) (T' p k)) (hq : q = 2 ^ e) (e2 : 2 ≤ e) (e4 : e ≤ 4) (l : ℕ) :
    ∀ {n s : ℕ} {v v' : ℕ → C}, n = 2 ^ l → 1 ≤ l → N = n * s → (∀ t < N, Q false (v t) (v' t)) →
      ∀ t < N, Q false (ditRec q B false T mode n s v t) (ditRec q B' true T' mode n s v' t) := by
  induction l using Nat.strong_induction_on with
  | _ l ih =>
    intro n s v v' hn hl hN hv t ht
    have hr := LinLaws.le16 hq e2 e4
    rw [ditRec.eq_def q B false T mode n s v, ditRec.eq_def q B' true T' mode n s v']
    by_cases hc : n ≤ q ∨ q < 2
    · rw [dif_pos hc, dif_pos hc]
      have hnr : n ≤ 16 := by omega
      exact L.endPure_conj (by rw [hn] at hnr ⊢; exact pow_le_16 hl hnr) hN hv t ht
    · rw [dif_neg hc, dif_neg hc]
      obtain ⟨hel, hd, hN1, hN2⟩ := LinLaws.split hq hn hN (by omega)
      exact dit_conj hN1 (fun p _ xs xs' h i => L.ditOut_conj hB (fun k => hT _ k) xs xs' h i)
        (ih (l - e) (by omega) hd (by omega) hN2 hv) t ht

end recs

theorem wpow_conj (L : ConjLaws Q) {w w' : C} (h : Q false w w') (k : ℕ) : Q false (wpow w k) (wpow w' k) := by
  induction k using Nat.strong_induction_on with
  | _ k ih =>
    rw [wpow.eq_def w k, wpow.eq_def w' k]
    by_cases h1 : k ≤ 1
    · rw [dif_pos h1, dif_pos h1]; exact h
    · rw [dif_neg h1, dif_neg h1]
      split
      · exact L.mul (ih _ (by omega)) (ih _ (by omega))
      · exact L.mul (ih _ (by omega)) (ih _ (by omega))

theorem tw_conj (L : ConjLaws Q) (path : Path) (q N p : ℕ) (k : Fin (q - 1)) :
    Q false (stockhamTw C path q N false p k) (stockhamTw C path q N true p k) := by
  cases path
  · exact L.tab _
  · exact L.wpow_conj (L.tab _) _

theorem stockOut_conj (L : ConjLaws Q) {th : ℕ} {dit : Bool} {rad : Radix} {l N : ℕ} (hN : N = 2 ^ l) (hl : 1 ≤ l)
    (hv : ∀ t < N, Q false (v t) (v' t)) :
    ∀ t < N, Q false (stockOut C th dit rad false mode N v t) (stockOut C th dit rad true mode N v' t) := by
  cases dit <;> cases rad
  · exact L.difRec_conj (e := 2) L.bfly4 (L.tw_conj _ _ _) (by norm_num) (by omega) (by omega) l hN hl (by omega) hv
  · exact L.difRec_conj (e := 3) L.bfly8 (L.tw_conj _ _ _) (by norm_num) (by omega) (by omega) l hN hl (by omega) hv
  · exact L.difRec_conj (e := 4) L.bfly16 (L.tw_conj _ _ _) (by norm_num) (by omega) (by omega) l hN hl (by omega) hv
  · exact L.ditRec_conj (e := 2) L.bfly4 (L.tw_conj _ _ _) (by norm_num) (by omega) (by omega) l hN hl (by omega) hv
  · exact L.ditRec_conj (e := 3) L.bfly8 (L.tw_conj _ _ _) (by norm_num) (by omega) (by omega) l hN hl (by omega) hv
  · exact L.ditRec_conj (e := 4) L.bfly16 (L.tw_conj _ _ _) (by norm_num) (by omega) (by omega) l hN hl (by omega) hv

end stock

/-! ### six-step and eight-step -/

section six
variable {n : ℕ}
open ApLaws (mod_lt_of rc_lt)

theorem transp_conj (hv : ∀ t < n * n, Q false (v t) (v' t)) : ∀ t < n * n, Q false (transpV n v t) (transpV n v' t) :=
  fun _ ht => hv _ (rc_lt (Nat.div_lt_of_lt_mul ht) (mod_lt_of ht))

theorem rec8_conj (L : ConjLaws Q) {l N : ℕ} (hN : N = 2 ^ l) (hl : 1 ≤ l) (hv : ∀ t < N, Q false (v t) (v' t)) :
    ∀ t < N, Q false (difRec 8 (bf8 false) false (stockhamTw C .serial 8 N false) mode N 1 v t)
      (difRec 8 (bf8 true) true (stockhamTw C .serial 8 N true) mode N 1 v' t) :=
  L.difRec_conj (e := 3) L.bfly8 (L.tw_conj _ _ _) (by norm_num) (by omega) (by omega) l hN hl (by omega) hv

theorem rows_conj (L : ConjLaws Q) {l : ℕ} (hn : n = 2 ^ l) (hl : 1 ≤ l) (hv : ∀ t < n * n, Q false (v t) (v' t)) :
    ∀ t < n * n, Q false (sixRowsV false n v t) (sixRowsV true n v' t) := fun t ht =>
  L.rec8_conj (mode := .scale_1) (v := fun j => v (t / n * n + j)) (v' := fun j => v' (t / n * n + j))
    hn hl (fun j hj => hv _ (by rw [Nat.add_comm]; exact rc_lt hj (Nat.div_lt_of_lt_mul ht))) (t % n) (mod_lt_of ht)

theorem mult_conj (L : ConjLaws Q) (hv : ∀ t < n * n, Q false (v t) (v' t)) :
    ∀ t < n * n, Q false (sixMultV false mode n v t) (sixMultV true mode n v' t) := fun t ht =>
  L.mul (L.scale _ mode (L.tab _)) (hv (t / n + t % n * n) (rc_lt (Nat.div_lt_of_lt_mul ht) (mod_lt_of ht)))

theorem six_conj (L : ConjLaws Q) {l : ℕ} (hn : n = 2 ^ l) (hl : 1 ≤ l) (hv : ∀ t < n * n, Q false (v t) (v' t)) :
    ∀ t < n * n, Q false (sixPure false mode n v t) (sixPure true mode n v' t) :=
  transp_conj (L.rows_conj hn hl (L.mult_conj (L.rows_conj hn hl (transp_conj hv))))

theorem eightPre_conj (L : ConjLaws Q) {N1 : ℕ} (hv : ∀ t < 8 * N1, Q false (v t) (v' t)) :
    ∀ t < 8 * N1, Q false (eightPreV false mode N1 v t) (eightPreV true mode N1 v' t) := by
  intro t ht
  have h1 : 0 < N1 := by omega
  have hq : t % N1 < N1 := Nat.mod_lt _ h1
  exact L.difOut_conj L.bfly8 (fun k => L.wpow_conj (L.tab _) _) (fun j => scalepz (8 * N1) mode (v (t % N1 + N1 * j.val)))
    (fun j => scalepz (8 * N1) mode (v' (t % N1 + N1 * j.val)))
    (fun j => L.scale (8 * N1) mode (hv _ (by
      have hj := j.isLt
      calc t % N1 + N1 * j.val < N1 * (j.val + 1) := by rw [Nat.mul_add]; omega
        _ ≤ N1 * 8 := Nat.mul_le_mul_left _ hj
        _ = 8 * N1 := Nat.mul_comm _ _))) (Fin.ofNat 8 (t / N1))

theorem eight_conj (L : ConjLaws Q) {l : ℕ} (hn : n = 2 ^ l) (hl : 1 ≤ l) (hv : ∀ t < 8 * (n * n), Q false (v t) (v' t)) :
    ∀ t < 8 * (n * n), Q false (eightPure false mode n v t) (eightPure true mode n v' t) := by
  intro t ht
  have h1 : 1 ≤ n * n := by omega
  have a1 := L.eightPre_conj (mode := mode) hv
  have a2 : ∀ t < 8 * (n * n), Q false (eightSubV false n (eightPreV false mode (n * n) v) t)
      (eightSubV true n (eightPreV true mode (n * n) v') t) := by
    intro t ht
    have hb : t / (n * n) < 8 := Nat.div_lt_of_lt_mul (by omega)
    exact L.six_conj (mode := .scale_1) (v := fun j => eightPreV false mode (n * n) v (t / (n * n) * (n * n) + j))
      (v' := fun j => eightPreV true mode (n * n) v' (t / (n * n) * (n * n) + j)) hn hl
      (fun j hj => a1 _ (by rw [Nat.add_comm]; exact rc_lt hj hb)) (t % (n * n)) (Nat.mod_lt _ h1)
  exact a2 (t / 8 + n * n * (t % 8)) (by
    have : t / 8 < n * n := by omega
    rw [Nat.mul_comm (n * n)]
    exact rc_lt this (by omega))

theorem sixOut_conj (L : ConjLaws Q) {l N : ℕ} (hN : N = 2 ^ l) (hl : 1 ≤ l) (hv : ∀ t < N, Q false (v t) (v' t)) :
    ∀ t < N, Q false (sixOut false mode l v t) (sixOut true mode l v' t) := by
  intro t ht
  unfold sixOut
  by_cases h5 : l ≤ 5
  · rw [if_pos h5, if_pos h5]
    subst hN
    exact L.rec8_conj rfl hl hv t ht
  · rw [if_neg h5, if_neg h5]
    by_cases h2 : l % 2 = 1
    · rw [if_pos h2, if_pos h2]
      have e := pow_split_odd h5 h2
      rw [hN, e] at hv ht
      exact L.eight_conj rfl (by omega) hv t ht
    · rw [if_neg h2, if_neg h2]
      have e : 2 ^ l = 2 ^ (l / 2) * 2 ^ (l / 2) := by rw [← pow_add]; congr 1; omega
      rw [hN, e] at hv ht
      exact L.six_conj rfl (by omega) hv t ht

end six

/-- the algorithms for powers of two -/
theorem algoOut_conj (L : ConjLaws Q) {thr : Thr} {kind : AlgoKind} {n : ℕ} (hk : kind.Usable n) (hm : kind ≠ .mixed)
    (hv : ∀ t < n, Q false (v t) (v' t)) :
    ∀ t < n, Q false (algoOut C thr kind false mode n v t) (algoOut C thr kind true mode n v' t) := by
  intro t ht
  unfold algoOut
  cases kind with
  | stock dit rad =>
    obtain ⟨l, rfl, hl, _⟩ := hk
    exact L.stockOut_conj rfl hl hv t ht
  | six =>
    obtain ⟨l, rfl, hl, _⟩ := hk
    simp only [logLoop_pow]
    exact L.sixOut_conj rfl hl hv t ht
  | mixed => exact absurd rfl hm

theorem fftOut_conj (L : ConjLaws Q) {thr : Thr} {l n : ℕ} (hn : n = 2 ^ l) (hl : l ≤ 24) (hv : ∀ t < n, Q false (v t) (v' t)) :
    ∀ t < n, Q false (fftOut C thr false mode n v t) (fftOut C thr true mode n v' t) := by
  unfold fftOut
  cases hd : dispatch (logOf n) with
  | none => exact hv
  | some kind =>
    refine L.algoOut_conj (AlgoKind.usable_of_dispatch hd) (fun e => ?_) hv
    rw [hn, logOf_pow] at hd
    subst e
    interval_cases l <;> cases hd

end ConjLaws

end OTFFT
