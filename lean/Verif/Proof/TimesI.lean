/-
Multiplication by the imaginary unit commutes exactly with the operations of the complex transforms.
-/
import Verif.Proof.Sign

namespace OTFFT

open Intrin

variable {F : Type} [FArith F] {r : Bool → F → F → Prop}

/-- what is to be shown of the primitives -/
structure XmmOps.Rot (X : XmmOps F) (r : Bool → F → F → Prop) : Prop where
  add : ∀ {a a' b b'}, TimesI r a a' → TimesI r b b' → TimesI r (X.addpz a b) (X.addpz a' b')
  sub : ∀ {a a' b b'}, TimesI r a a' → TimesI r b b' → TimesI r (X.subpz a b) (X.subpz a' b')
  jx : ∀ {a a'}, TimesI r a a' → TimesI r (X.jxpz a) (X.jxpz a')
  v8 : ∀ {a a'}, TimesI r a a' → TimesI r (X.v8xpz a) (X.v8xpz a')
  w8 : ∀ {a a'}, TimesI r a a' → TimesI r (X.w8xpz a) (X.w8xpz a')
  h1 : ∀ {a a'}, TimesI r a a' → TimesI r (X.h1xpz a) (X.h1xpz a')
  h3 : ∀ {a a'}, TimesI r a a' → TimesI r (X.h3xpz a) (X.h3xpz a')
  hf : ∀ {a a'}, TimesI r a a' → TimesI r (X.hfxpz a) (X.hfxpz a')
  hd : ∀ {a a'}, TimesI r a a' → TimesI r (X.hdxpz a) (X.hdxpz a')
  mul : ∀ {a a'} (k : Xmm F), TimesI r a a' → TimesI r (X.mulpz k a) (X.mulpz k a')
  muld : ∀ {a a'} (k : F), TimesI r a a' → TimesI r (X.mulpd ![k, k] a) (X.mulpd ![k, k] a')

section
variable {a a' : Xmm F}

theorem NoSse.mul_rot (S : Signed r) (k : Xmm F) (h : TimesI r a a') : TimesI r (NoSse.mulpz k a) (NoSse.mulpz k a') :=
  ⟨S.addsub (S.mulL _ h.1) (S.mulL _ h.2), S.subadd (S.mulL _ h.2) (S.mulL _ h.1)⟩

theorem Sse2.mul_rot (S : Signed r) (k : Xmm F) (h : TimesI r a a') : TimesI r (Sse2.mulpz k a) (Sse2.mulpz k a') :=
  ⟨S.add (S.mulL _ h.1) (S.mulL _ (S.neg h.2)), S.add (S.mulL _ h.2) (S.mulL _ (S.negL h.1))⟩

theorem Sse3.mul_rot (S : Signed r) (fma : Bool) (k : Xmm F) (h : TimesI r a a') :
    TimesI r (Sse3.mulpz fma k a) (Sse3.mulpz fma k a') := by
  cases fma
  · exact ⟨S.addsub (S.mulL _ h.1) (S.mulL _ h.2), S.subadd (S.mulL _ h.2) (S.mulL _ h.1)⟩
  · exact ⟨S.fmafms (S.refl _) h.1 (S.mulL _ h.2), S.fmsfma (S.refl _) h.2 (S.mulL _ h.1)⟩

theorem NoSse.mulR_rot (S : Signed r) (k : Xmm F) (h : TimesI r a a') : TimesI r (NoSse.mulpz a k) (NoSse.mulpz a' k) :=
  ⟨S.addsubc (S.mulR _ h.2) (S.mulR _ h.1), S.subaddc (S.mulR _ h.2) (S.mulR _ h.1)⟩

theorem Sse2.mulR_rot (S : Signed r) (k : Xmm F) (h : TimesI r a a') : TimesI r (Sse2.mulpz a k) (Sse2.mulpz a' k) :=
  ⟨S.addc (S.mul (f := false) (g := true) h.2 (S.neg (S.refl _))) (S.mulR _ h.1),
    S.addc (S.mulR _ h.2) (S.mul (f := true) (g := true) h.1 (S.negL (S.refl _)))⟩

/-- not with fused multiply-add: there the other one of the two products is rounded -/
theorem Sse3.mulR_rot (S : Signed r) (k : Xmm F) (h : TimesI r a a') : TimesI r (Sse3.mulpz false a k) (Sse3.mulpz false a' k) :=
  NoSse.mulR_rot S k h

theorem Cpx.mulR_rot (S : Signed r) (k : Xmm F) (h : TimesI r a a') : TimesI r (Cpx.mul a k) (Cpx.mul a' k) :=
  NoSse.mulR_rot S k h

theorem NoSse.rot (S : Signed r) : (NoSse.ops (F := F)).Rot r where
  add h h' := ⟨S.add h.1 h'.1, S.add h.2 h'.2⟩
  sub h h' := ⟨S.subsub h.1 h'.1, S.subsub h.2 h'.2⟩
  jx h := ⟨S.neg h.2, S.negL h.1⟩
  v8 h := ⟨S.mulL _ (S.addsubc h.2 h.1), S.mulL _ (S.subaddc h.2 h.1)⟩
  w8 h := ⟨S.mulL _ (S.subadd h.1 h.2), S.mulL _ (S.addsub h.2 h.1)⟩
  h1 h := NoSse.mul_rot S _ h
  h3 h := NoSse.mul_rot S _ h
  hf h := NoSse.mul_rot S _ h
  hd h := NoSse.mul_rot S _ h
  mul k h := NoSse.mul_rot S k h
  muld k h := ⟨S.mulL _ h.1, S.mulL _ h.2⟩

theorem Sse2.rot (S : Signed r) : (Sse2.ops (F := F)).Rot r where
  add h h' := ⟨S.add h.1 h'.1, S.add h.2 h'.2⟩
  sub h h' := ⟨S.subsub h.1 h'.1, S.subsub h.2 h'.2⟩
  jx h := ⟨S.neg h.2, S.negL h.1⟩
  v8 h := ⟨S.mulL _ (S.add h.1 (S.neg h.2)), S.mulL _ (S.add h.2 (S.negL h.1))⟩
  w8 h := ⟨S.mulL _ (S.add h.1 (S.negL h.2)), S.mulL _ (S.add h.2 (S.neg h.1))⟩
  h1 h := Sse2.mul_rot S _ h
  h3 h := Sse2.mul_rot S _ h
  hf h := Sse2.mul_rot S _ h
  hd h := Sse2.mul_rot S _ h
  mul k h := Sse2.mul_rot S k h
  muld k h := ⟨S.mulL _ h.1, S.mulL _ h.2⟩

theorem Sse3.rot (S : Signed r) (fma : Bool) : (Sse3.ops (F := F) fma).Rot r where
  add h h' := ⟨S.add h.1 h'.1, S.add h.2 h'.2⟩
  sub h h' := ⟨S.subsub h.1 h'.1, S.subsub h.2 h'.2⟩
  jx h := ⟨S.neg h.2, S.negL h.1⟩
  v8 h := ⟨S.mulL _ (S.addsub h.1 h.2), S.mulL _ (S.subadd h.2 h.1)⟩
  w8 h := ⟨S.mulL _ (S.add h.1 (S.negL h.2)), S.mulL _ (S.add h.2 (S.neg h.1))⟩
  h1 h := Sse3.mul_rot S fma _ h
  h3 h := Sse3.mul_rot S fma _ h
  hf h := Sse3.mul_rot S fma _ h
  hd h := Sse3.mul_rot S fma _ h
  mul k h := Sse3.mul_rot S fma k h
  muld k h := ⟨S.mulL _ h.1, S.mulL _ h.2⟩

theorem Target.rot (S : Signed r) (i : Target) : (i.xmm F).Rot r := by
  unfold Target.xmm
  split
  · split
    · exact Sse3.rot S _
    · exact Sse2.rot S
  · exact NoSse.rot S

theorem Target.rotLaws (S : Signed r) (i : Target) : letI := i.arith F
    LinLaws (E := F) (A := Xmm F) (F := F) (C := Xmm F) fun _ a b => TimesI r a b := by
  letI := i.arith F
  have H := Target.rot S i
  exact
  { add := fun h h' => H.add h h'
    sub := fun h h' => H.sub h h'
    jx := fun h => H.jx h
    v8 := fun h => H.v8 h
    w8 := fun h => H.w8 h
    h1 := fun h => H.h1 h
    h3 := fun h => H.h3 h
    hf := fun h => H.hf h
    hd := fun h => H.hd h
    mulL := fun _ k h => H.mul k h
    scl := fun _ k h => H.muld k h
    zeroC := ⟨S.zero, S.refl _⟩ }

theorem Target.rotMulR (S : Signed r) {i : Target} (hi : i.fused = false) : letI := i.arith F
    LinLaws.MulR (E := F) (A := Xmm F) (F := F) (C := Xmm F) fun _ a b => TimesI r a b := by
  letI := i.arith F
  intro _ a a' _ w h
  show TimesI r ((i.xmm F).mulpz a w) ((i.xmm F).mulpz a' w)
  unfold Target.xmm
  obtain ⟨b1, b2, b3, b4, b5⟩ := i
  cases b1
  · exact NoSse.mulR_rot S w h
  cases b2
  · exact Sse2.mulR_rot S w h
  cases b3
  · exact Sse3.mulR_rot S w h
  · cases hi

theorem Target.rotCMulR (S : Signed r) (i : Target) : letI := i.arith F
    LinLaws.CMulR (E := F) (A := Xmm F) (F := F) (C := Xmm F) fun _ a b => TimesI r a b := by
  letI := i.arith F
  intro _ a a' _ w h
  exact Cpx.mulR_rot S w h

end

/-! ### IEEE 754 -/

namespace Dbl
variable {ρ : ℝ → ℝ} {Ω : ℝ} {f g : Bool}

theorem rel_refl (a : Dbl) : rel false a a := by
  cases a <;> simp [rel, flip]

theorem flip_flip (x : ℝ) : flip f (flip g x) = flip (f != g) x := by
  cases f <;> cases g <;> simp [flip]

theorem rel_symm {a b : Dbl} (h : rel f a b) : rel f b a := by
  cases a <;> cases b <;> simp only [rel] at h ⊢
  · rw [h]; simp
  · rw [h, flip_flip]; simp [flip]

theorem rel_trans {a b c : Dbl} (h : rel f a b) (h' : rel g b c) : rel (f != g) a c := by
  cases a <;> cases b <;> simp only [rel] at h <;> cases c <;> simp only [rel] at h' ⊢
  · rw [h', h]; simp
  · rw [h', h, flip_flip, bne_comm]

theorem rel_neg_right {a b : Dbl} (h : rel f a b) : rel (!f) a b.neg := by
  cases a <;> cases b <;> simp only [rel, neg] at h ⊢
  · rw [h]; cases f <;> simp
  · rw [h]; cases f <;> simp [flip]

theorem add_comm' (a b : Dbl) : add ρ Ω a b = add ρ Ω b a := by
  cases a <;> cases b <;> simp only [add]
  · rename_i s t
    by_cases h : s = t
    · rw [if_pos h, if_pos h.symm, h]
    · rw [if_neg h, if_neg (Ne.symm h)]
  · rw [zsum, zsum, Bool.and_comm, add_comm]

theorem rel_mul (hs : ∀ f, Sym ρ Ω f) {a a' b b' : Dbl} (h : rel f a a') (h' : rel g b b') :
    rel (f != g) (mul ρ Ω a b) (mul ρ Ω a' b') :=
  rel_trans (rel_mul_right (hs f) b h) (rel_mul_left (hs g) a' h')

theorem fma_neg_neg (a b c : Dbl) : rel false (fma ρ Ω a b c) (fma ρ Ω a.neg b.neg c) := by
  have hsgn : ∀ {x : ℝ} {z : Bool}, sgn (num (-x) (!z)) = !sgn (num x z) := by
    intro x z
    rw [sgn_num, sgn_num]
    by_cases hx : x = 0
    · subst hx; simp
    · rw [if_neg hx, if_neg (neg_ne_zero.2 hx)]
      rcases lt_or_gt_of_ne hx with h | h
      · simp [h, not_lt.2 h.le]
      · simp [h, not_lt.2 h.le]
  have hmul : mul ρ Ω a b = mul ρ Ω a.neg b.neg := by
    rcases a with _ | s | ⟨x, z⟩ <;> rcases b with _ | t | ⟨y, w⟩ <;> simp only [neg, mul]
    · cases s <;> cases t <;> rfl
    · rw [hsgn]
      by_cases hy : y = 0
      · rw [if_pos hy, if_pos (neg_eq_zero.2 hy)]
      · rw [if_neg hy, if_neg (neg_ne_zero.2 hy)]
        simp
    · rw [hsgn]
      by_cases hx : x = 0
      · rw [if_pos hx, if_pos (neg_eq_zero.2 hx)]
      · rw [if_neg hx, if_neg (neg_ne_zero.2 hx)]
        simp
    · rw [hsgn, hsgn, neg_mul_neg]
      simp
  have hadd := congrArg (fun m => add ρ Ω m c) hmul
  have e : fma ρ Ω a b c = fma ρ Ω a.neg b.neg c := by
    rcases a with _ | s | ⟨x, z⟩ <;> rcases b with _ | t | ⟨y, w⟩ <;> rcases c with _ | u | ⟨v, o⟩ <;>
      first
      | exact hadd
      | rfl
      | skip
    show rnd ρ Ω (x * y + v) _ = rnd ρ Ω (-x * -y + v) _
    rw [hsgn, hsgn, neg_mul_neg]
    simp
  rw [← e]
  exact rel_refl _

theorem rel_fma (hs : ∀ f, Sym ρ Ω f) {a a' b b' c c' : Dbl} (h : rel f a a') (h' : rel g b b') (h'' : rel (f != g) c c') :
    rel (f != g) (fma ρ Ω a b c) (fma ρ Ω a' b' c') := by
  cases f with
  | false =>
    -- change `a`, then `b` and `c`
    have h1 := rel_fma_right (hs false) b h (rel_refl c)
    have h2 := rel_fma_left (hs g) a' h' (show rel g c c' by cases g <;> exact h'')
    exact rel_trans h1 h2
  | true =>
    cases g with
    | false =>
      have h1 := rel_fma_left (hs false) a h' (rel_refl c)
      have h2 := rel_fma_right (hs true) b' h h''
      exact rel_trans (f := false) (g := true) h1 h2
    | true =>
      -- both factors change their sign
      have h1 : rel false (fma ρ Ω a.neg b.neg c) (fma ρ Ω a' b' c') := by
        have ha : rel false a.neg a' := rel_symm (rel_neg_right (rel_symm h))
        have hb : rel false b.neg b' := rel_symm (rel_neg_right (rel_symm h'))
        exact rel_trans (rel_fma_right (hs false) b.neg ha (rel_refl c)) (rel_fma_left (hs false) a' hb h'')
      exact rel_trans (f := false) (g := false) (fma_neg_neg a b c) h1

end Dbl

variable [Libm]

omit [Libm] in
theorem Ieee.signed_iff {ρ : ℝ → ℝ} {Ω : ℝ} (f : Bool) (a b : Ieee ρ Ω) : Ieee.signed f a b ↔ Dbl.rel f a.d b.d := by
  cases f
  · exact (Dbl.rel_same _ _).symm
  · exact (Dbl.rel_opp _ _).symm

theorem Ieee.signed_laws {ρ : ℝ → ℝ} {Ω : ℝ} (h0 : 0 ≤ Ω) (hρ : ∀ x, ρ (-x) = -ρ x) : Signed (Ieee.signed (ρ := ρ) (Ω := Ω)) := by
  have hs : ∀ f, Dbl.Sym ρ Ω f := fun f _ => ⟨h0, hρ⟩
  have e : (Ieee.signed (ρ := ρ) (Ω := Ω)) = fun f a b => Dbl.rel f a.d b.d := by
    funext f a b; exact propext (Ieee.signed_iff f a b)
  have hz : ρ 0 = 0 := by have := hρ 0; rw [neg_zero] at this; linarith
  rw [e]
  exact
  { refl := fun a => Dbl.rel_refl a.d
    symm := fun h => Dbl.rel_symm h
    trans := fun {f _ _ _} h h' => Signed.cast (r := fun f (a b : Ieee ρ Ω) => Dbl.rel f a.d b.d) (Dbl.rel_trans h h') (by cases f <;> rfl)
    neg := fun h => Dbl.rel_neg_right h
    zero := (Ieee.preserved (f := true) (hs true) ⟨h0, hz⟩).zero
    add := fun {f _ _ _ _} h h' => Dbl.rel_add (hs f) h h'
    add_comm := fun a b => by
      show Dbl.rel false (Dbl.add ρ Ω a.d b.d) (Dbl.add ρ Ω b.d a.d)
      rw [Dbl.add_comm']; exact Dbl.rel_refl _
    sub := fun a b => Dbl.rel_refl _
    mul := fun h h' => Dbl.rel_mul hs h h'
    fma := fun h h' h'' => Dbl.rel_fma hs h h' h''
    fms := fun a b c => Dbl.rel_refl _ }

end OTFFT
