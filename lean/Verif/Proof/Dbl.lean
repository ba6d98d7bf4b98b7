/-
What the arithmetic of doubles preserves: opposite numbers, numbers that differ in the sign of zero, NaN, infinities.
-/
import Verif.Spec.Hom

namespace OTFFT
namespace Dbl

variable {ρ : ℝ → ℝ} {Ω : ℝ} {f : Bool}

/-- `x` or `-x` -/
def flip (f : Bool) (x : ℝ) : ℝ := if f then -x else x

/-- equal (`f = false`) or opposite (`f = true`), up to the sign of zero -/
def rel (f : Bool) : Dbl → Dbl → Prop
  | nan, nan => True
  | inf s, inf t => t = (s != f)
  | num x _, num y _ => y = flip f x
  | _, _ => False

theorem rel_same (a b : Dbl) : rel false a b ↔ same a b := by
  cases a <;> cases b <;> simp [rel, same, flip, eq_comm]

theorem rel_opp (a b : Dbl) : rel true a b ↔ same a.neg b := by
  cases a <;> cases b <;> simp [rel, same, flip, neg, eq_comm]

theorem flip_zero {x : ℝ} : flip f x = 0 ↔ x = 0 := by cases f <;> simp [flip]

/-- what is needed of the rounding -/
def Sym (ρ : ℝ → ℝ) (Ω : ℝ) (f : Bool) : Prop := f = true → 0 ≤ Ω ∧ ∀ x, ρ (-x) = -ρ x

theorem rel_rnd (h : Sym ρ Ω f) (x : ℝ) (z z' : Bool) : rel f (rnd ρ Ω x z) (rnd ρ Ω (flip f x) z') := by
  unfold rnd
  cases f with
  | false =>
    simp only [flip, Bool.false_eq_true, if_false]
    split
    · simp [rel]
    · simp [rel, flip]
  | true =>
    obtain ⟨h0, h1⟩ := h rfl
    have hz : ρ 0 = 0 := by have := h1 0; rw [neg_zero] at this; linarith
    simp only [flip, if_true, h1, abs_neg]
    split
    · rename_i hx
      have : x ≠ 0 := by rintro rfl; rw [hz, abs_zero] at hx; linarith
      rcases lt_or_gt_of_ne this with h | h
      · simp [rel, h, not_lt.2 h.le]
      · simp [rel, h, not_lt.2 h.le]
    · simp [rel, flip]

theorem rel_neg {a a' : Dbl} (h : rel f a a') : rel f a.neg a'.neg := by
  cases a <;> cases a' <;> simp only [rel, neg] at h ⊢
  · rw [h]; cases f <;> simp
  · rw [h]; cases f <;> simp [flip]

/-- the related pairs -/
theorem rel_cases {p : Dbl → Dbl → Prop} (hn : p nan nan) (hi : ∀ s, p (inf s) (inf (s != f)))
    (hx : ∀ x z z', p (num x z) (num (flip f x) z')) {a a' : Dbl} (h : rel f a a') : p a a' := by
  rcases a with _ | s | ⟨x, z⟩ <;> rcases a' with _ | s' | ⟨x', z'⟩ <;> simp only [rel] at h
  · exact hn
  · subst h; exact hi s
  · subst h; exact hx x z z'

theorem rel_add (hs : Sym ρ Ω f) {a a' b b' : Dbl} (h : rel f a a') (h' : rel f b b') :
    rel f (add ρ Ω a b) (add ρ Ω a' b') := by
  refine rel_cases (p := fun a a' => rel f (add ρ Ω a b) (add ρ Ω a' b')) ?_ (fun s => ?_) (fun x z z' => ?_) h
  · exact trivial
  · refine rel_cases (p := fun b b' => rel f (add ρ Ω (inf s) b) (add ρ Ω (inf (s != f)) b')) ?_ (fun t => ?_) (fun y w w' => ?_) h'
    · exact trivial
    · show rel f (if s = t then inf s else nan) (if (s != f) = (t != f) then inf (s != f) else nan)
      by_cases e : s = t
      · rw [if_pos e, if_pos (by rw [e])]; exact rfl
      · rw [if_neg e, if_neg (by cases s <;> cases t <;> cases f <;> simp_all)]; exact trivial
    · exact rfl
  · refine rel_cases (p := fun b b' => rel f (add ρ Ω (num x z) b) (add ρ Ω (num (flip f x) z') b')) ?_ (fun t => ?_) (fun y w w' => ?_) h'
    · exact trivial
    · exact rfl
    · show rel f (rnd ρ Ω (x + y) _) (rnd ρ Ω (flip f x + flip f y) _)
      have : flip f x + flip f y = flip f (x + y) := by cases f <;> simp [flip]; ring
      rw [this]
      exact rel_rnd hs _ _ _

theorem sgn_num (x : ℝ) (z : Bool) : sgn (num x z) = if x = 0 then z else decide (x < 0) := rfl

theorem sgn_flip {x : ℝ} (hx : x ≠ 0) (z z' : Bool) : sgn (num (flip f x) z') = (sgn (num x z) != f) := by
  rw [sgn_num, sgn_num, if_neg hx, if_neg (fun e => hx (flip_zero.1 e))]
  rcases lt_or_gt_of_ne hx with h | h
  · cases f <;> simp [flip, h, not_lt.2 h.le]
  · cases f <;> simp [flip, h, not_lt.2 h.le]

theorem rel_mul_left (hs : Sym ρ Ω f) (c : Dbl) {a a' : Dbl} (h : rel f a a') : rel f (mul ρ Ω c a) (mul ρ Ω c a') := by
  refine rel_cases (p := fun a a' => rel f (mul ρ Ω c a) (mul ρ Ω c a')) ?_ (fun s => ?_) (fun x z z' => ?_) h
  · cases c <;> exact trivial
  · rcases c with _ | t | ⟨y, w⟩
    · exact trivial
    · show (t != (s != f)) = ((t != s) != f)
      simp
    · show rel f (if y = 0 then nan else inf _) (if y = 0 then nan else inf _)
      by_cases hy : y = 0
      · rw [if_pos hy, if_pos hy]; exact trivial
      · rw [if_neg hy, if_neg hy]
        show (_ != (s != f)) = ((_ != s) != f)
        simp
  · rcases c with _ | t | ⟨y, w⟩
    · exact trivial
    · show rel f (if x = 0 then nan else inf _) (if flip f x = 0 then nan else inf _)
      by_cases hx : x = 0
      · rw [if_pos hx, if_pos (flip_zero.2 hx)]; exact trivial
      · rw [if_neg hx, if_neg (fun e => hx (flip_zero.1 e)), sgn_flip hx z z']
        show (t != (_ != f)) = ((t != _) != f)
        simp
    · show rel f (rnd ρ Ω (y * x) _) (rnd ρ Ω (y * flip f x) _)
      have : y * flip f x = flip f (y * x) := by cases f <;> simp [flip]
      rw [this]
      exact rel_rnd hs _ _ _

theorem mul_comm' (a b : Dbl) : mul ρ Ω a b = mul ρ Ω b a := by
  cases a <;> cases b <;> simp only [mul]
  · rw [bne_comm]
  · split
    · rfl
    · rw [bne_comm]
  · split
    · rfl
    · rw [bne_comm]
  · rw [bne_comm, mul_comm]

theorem rel_mul_right (hs : Sym ρ Ω f) (c : Dbl) {a a' : Dbl} (h : rel f a a') : rel f (mul ρ Ω a c) (mul ρ Ω a' c) := by
  rw [mul_comm' a, mul_comm' a']
  exact rel_mul_left hs c h

theorem rel_div (hs : Sym ρ Ω f) (c : Dbl) {a a' : Dbl} (h : rel f a a') : rel f (div ρ Ω a c) (div ρ Ω a' c) := by
  refine rel_cases (p := fun a a' => rel f (div ρ Ω a c) (div ρ Ω a' c)) ?_ (fun s => ?_) (fun x z z' => ?_) h
  · cases c <;> exact trivial
  · rcases c with _ | t | ⟨y, w⟩
    · exact trivial
    · exact trivial
    · show ((s != f) != _) = ((s != _) != f)
      cases s <;> cases f <;> simp
  · rcases c with _ | t | ⟨y, w⟩
    · exact trivial
    · show (0 : ℝ) = flip f 0
      rw [flip_zero.2 rfl]
    · show rel f (if y = 0 then (if x = 0 then nan else inf _) else rnd ρ Ω (x / y) _)
        (if y = 0 then (if flip f x = 0 then nan else inf _) else rnd ρ Ω (flip f x / y) _)
      by_cases hy : y = 0
      · rw [if_pos hy, if_pos hy]
        by_cases hx : x = 0
        · rw [if_pos hx, if_pos (flip_zero.2 hx)]; exact trivial
        · rw [if_neg hx, if_neg (fun e => hx (flip_zero.1 e)), sgn_flip hx z z']
          show ((_ != f) != _) = ((_ != _) != f)
          generalize sgn (num x z) = p
          generalize sgn (num y w) = q
          cases p <;> cases q <;> cases f <;> rfl
      · rw [if_neg hy, if_neg hy]
        have : flip f x / y = flip f (x / y) := by cases f <;> simp [flip, neg_div]
        rw [this]
        exact rel_rnd hs _ _ _

theorem rel_fma_left (hs : Sym ρ Ω f) (c : Dbl) {a a' b b' : Dbl} (h : rel f a a') (h' : rel f b b') :
    rel f (fma ρ Ω c a b) (fma ρ Ω c a' b') := by
  have key := rel_add hs (rel_mul_left hs c h) h'
  rcases c with _ | t | ⟨y, w⟩
  · exact key
  · exact key
  · revert key
    refine rel_cases (p := fun a a' => rel f (add ρ Ω (mul ρ Ω (num y w) a) b) (add ρ Ω (mul ρ Ω (num y w) a') b') →
      rel f (fma ρ Ω (num y w) a b) (fma ρ Ω (num y w) a' b')) (fun k => k) (fun s k => k) (fun x z z' _ => ?_) h
    refine rel_cases (p := fun b b' => rel f (fma ρ Ω (num y w) (num x z) b) (fma ρ Ω (num y w) (num (flip f x) z') b'))
      ?_ (fun t => ?_) (fun t v v' => ?_) h'
    · exact trivial
    · exact rfl
    · show rel f (rnd ρ Ω (y * x + t) _) (rnd ρ Ω (y * flip f x + flip f t) _)
      have : y * flip f x + flip f t = flip f (y * x + t) := by cases f <;> simp [flip]; ring
      rw [this]
      exact rel_rnd hs _ _ _

theorem fma_comm (a b c : Dbl) : fma ρ Ω a b c = fma ρ Ω b a c := by
  have key := congrArg (fun m => add ρ Ω m c) (mul_comm' (ρ := ρ) (Ω := Ω) a b)
  rcases a with _ | s | ⟨x, z⟩ <;> rcases b with _ | t | ⟨y, w⟩ <;> rcases c with _ | u | ⟨v, o⟩ <;>
    first
    | exact key
    | rfl
    | skip
  · show rnd ρ Ω (x * y + v) _ = rnd ρ Ω (y * x + v) _
    rw [bne_comm, mul_comm]

theorem rel_fma_right (hs : Sym ρ Ω f) (c : Dbl) {a a' b b' : Dbl} (h : rel f a a') (h' : rel f b b') :
    rel f (fma ρ Ω a c b) (fma ρ Ω a' c b') := by
  rw [fma_comm a, fma_comm a']
  exact rel_fma_left hs c h h'

/-- infinite or NaN -/
def notFin (a : Dbl) : Prop := ∀ x z, a ≠ num x z

theorem notFin_nan : notFin nan := fun _ _ => by simp
theorem notFin_inf (s : Bool) : notFin (inf s) := fun _ _ => by simp
theorem not_notFin (x : ℝ) (z : Bool) : ¬ notFin (num x z) := fun h => h x z rfl

theorem neg_bad {a : Dbl} (h : notFin a) : notFin a.neg := by
  cases a
  · exact notFin_nan
  · exact notFin_inf _
  · exact absurd h (not_notFin _ _)

theorem add_bad {a b : Dbl} (h : notFin a ∨ notFin b) : notFin (add ρ Ω a b) := by
  cases a <;> cases b <;> simp only [add] <;> try first | exact notFin_nan | exact notFin_inf _
  · split
    · exact notFin_inf _
    · exact notFin_nan
  · rcases h with h | h <;> exact absurd h (not_notFin _ _)

theorem mul_bad {a b : Dbl} (h : notFin a ∨ notFin b) : notFin (mul ρ Ω a b) := by
  cases a <;> cases b <;> simp only [mul] <;> try first | exact notFin_nan | exact notFin_inf _
  · split
    · exact notFin_nan
    · exact notFin_inf _
  · split
    · exact notFin_nan
    · exact notFin_inf _
  · rcases h with h | h <;> exact absurd h (not_notFin _ _)

theorem div_bad {a b : Dbl} (h : notFin a) : notFin (div ρ Ω a b) := by
  cases a <;> cases b <;> simp only [div] <;> try first | exact notFin_nan | exact notFin_inf _
  · exact absurd h (not_notFin _ _)
  · exact absurd h (not_notFin _ _)

theorem fma_bad {a b c : Dbl} (h : notFin a ∨ notFin b ∨ notFin c) : notFin (fma ρ Ω a b c) := by
  cases a <;> cases b <;> cases c <;> simp only [fma] <;>
    first
    | exact notFin_nan
    | exact notFin_inf _
    | exact add_bad (.inl (mul_bad (.inl notFin_nan)))
    | exact add_bad (.inl (mul_bad (.inl (notFin_inf _))))
    | exact add_bad (.inl (mul_bad (.inr notFin_nan)))
    | exact add_bad (.inl (mul_bad (.inr (notFin_inf _))))
    | (rcases h with h | h | h <;> exact absurd h (not_notFin _ _))

theorem add_nan {a b : Dbl} (h : a = nan ∨ b = nan) : add ρ Ω a b = nan := by
  rcases h with rfl | rfl <;> [cases b; cases a] <;> rfl
theorem mul_nan {a b : Dbl} (h : a = nan ∨ b = nan) : mul ρ Ω a b = nan := by
  rcases h with rfl | rfl <;> [cases b; cases a] <;> rfl
theorem div_nan {a b : Dbl} (h : a = nan) : div ρ Ω a b = nan := by
  subst h; cases b <;> rfl
theorem fma_nan {a b c : Dbl} (h : a = nan ∨ b = nan ∨ c = nan) : fma ρ Ω a b c = nan := by
  rcases h with rfl | rfl | rfl
  · cases b <;> cases c <;> rfl
  · cases a <;> cases c <;> rfl
  · cases a <;> cases b <;> simp only [fma] <;> exact add_nan (.inr rfl)

end Dbl

variable {ρ : ℝ → ℝ} {Ω : ℝ}

variable [Libm]

theorem Ieee.preserved {f : Bool} (hs : Dbl.Sym ρ Ω f) (h0 : 0 ≤ Ω ∧ ρ 0 = 0) :
    Preserved fun a b : Ieee ρ Ω => Dbl.rel f a.d b.d where
  zero := by
    show Dbl.rel f (Dbl.rnd ρ Ω (0 : ℕ) false) (Dbl.rnd ρ Ω (0 : ℕ) false)
    rw [Nat.cast_zero, Dbl.rnd, h0.2, if_neg (by rw [abs_zero]; exact not_lt.2 h0.1)]
    cases f <;> simp [Dbl.rel, Dbl.flip]
  neg _ _ h := Dbl.rel_neg h
  add _ _ _ _ h h' := Dbl.rel_add hs h h'
  sub _ _ _ _ h h' := Dbl.rel_add hs h (Dbl.rel_neg h')
  mul_left c _ _ h := Dbl.rel_mul_left hs c.d h
  mul_right c _ _ h := Dbl.rel_mul_right hs c.d h
  div c _ _ h := Dbl.rel_div hs c.d h
  fma_left c _ _ _ _ h h' := Dbl.rel_fma_left hs c.d h h'
  fma_right c _ _ _ _ h h' := Dbl.rel_fma_right hs c.d h h'
  fms_left c _ _ _ _ h h' := Dbl.rel_fma_left hs c.d h (Dbl.rel_neg h')
  fms_right c _ _ _ _ h h' := Dbl.rel_fma_right hs c.d h (Dbl.rel_neg h')

theorem Ieee.absorb_notFinite : Absorbing (Ieee.notFinite (ρ := ρ) (Ω := Ω)) where
  neg _ h := Dbl.neg_bad h
  add _ _ h := Dbl.add_bad h
  sub _ _ h := Dbl.add_bad (h.imp_right Dbl.neg_bad)
  mul _ _ h := Dbl.mul_bad h
  div _ _ h := Dbl.div_bad h
  fma _ _ _ h := Dbl.fma_bad h
  fms _ _ _ h := Dbl.fma_bad (h.imp_right fun h => h.imp_right Dbl.neg_bad)

omit [Libm] in
theorem Ieee.neg_nan {a : Ieee ρ Ω} (h : a.isNaN) : a.d.neg = .nan := by
  rw [show a.d = _ from h]; rfl

theorem Ieee.absorb_nan : Absorbing (Ieee.isNaN (ρ := ρ) (Ω := Ω)) where
  neg _ h := Ieee.neg_nan h
  add _ _ h := Dbl.add_nan h
  sub _ _ h := Dbl.add_nan (h.imp_right Ieee.neg_nan)
  mul _ _ h := Dbl.mul_nan h
  div _ _ h := Dbl.div_nan h
  fma _ _ _ h := Dbl.fma_nan h
  fms _ _ _ h := Dbl.fma_nan (h.imp_right fun h => h.imp_right Ieee.neg_nan)

omit [Libm] in
/-- changing data to something absorbing changes results only to something absorbing -/
theorem Absorbing.preserved {F : Type} [FArith F] {bad : F → Prop} (B : Absorbing bad) :
    Preserved fun a b : F => a = b ∨ bad b where
  zero := .inl rfl
  neg := by rintro a a' (rfl | h); exacts [.inl rfl, .inr (B.neg _ h)]
  add := by
    rintro a a' b b' (rfl | h) (rfl | h')
    exacts [.inl rfl, .inr (B.add _ _ (.inr h')), .inr (B.add _ _ (.inl h)), .inr (B.add _ _ (.inl h))]
  sub := by
    rintro a a' b b' (rfl | h) (rfl | h')
    exacts [.inl rfl, .inr (B.sub _ _ (.inr h')), .inr (B.sub _ _ (.inl h)), .inr (B.sub _ _ (.inl h))]
  mul_left := by rintro c a a' (rfl | h); exacts [.inl rfl, .inr (B.mul _ _ (.inr h))]
  mul_right := by rintro c a a' (rfl | h); exacts [.inl rfl, .inr (B.mul _ _ (.inl h))]
  div := by rintro c a a' (rfl | h); exacts [.inl rfl, .inr (B.div _ _ h)]
  fma_left := by
    rintro c a a' b b' (rfl | h) (rfl | h')
    exacts [.inl rfl, .inr (B.fma _ _ _ (.inr (.inr h'))), .inr (B.fma _ _ _ (.inr (.inl h))), .inr (B.fma _ _ _ (.inr (.inl h)))]
  fma_right := by
    rintro c a a' b b' (rfl | h) (rfl | h')
    exacts [.inl rfl, .inr (B.fma _ _ _ (.inr (.inr h'))), .inr (B.fma _ _ _ (.inl h)), .inr (B.fma _ _ _ (.inl h))]
  fms_left := by
    rintro c a a' b b' (rfl | h) (rfl | h')
    exacts [.inl rfl, .inr (B.fms _ _ _ (.inr (.inr h'))), .inr (B.fms _ _ _ (.inr (.inl h))), .inr (B.fms _ _ _ (.inr (.inl h)))]
  fms_right := by
    rintro c a a' b b' (rfl | h) (rfl | h')
    exacts [.inl rfl, .inr (B.fms _ _ _ (.inr (.inr h'))), .inr (B.fms _ _ _ (.inl h)), .inr (B.fms _ _ _ (.inl h))]

/-- scaling by a number the rounding commutes with -/
theorem Rounded.preserved {s : ℝ} (hs : ∀ x, ρ (s * x) = s * ρ x) :
    Preserved fun a b : Rounded ρ => b.val = s * a.val where
  zero := by show ((0 : ℕ) : ℝ) = s * ((0 : ℕ) : ℝ); simp
  neg a a' h := by show -a'.val = s * -a.val; rw [h]; ring
  add a a' b b' h h' := by show ρ (a'.val + b'.val) = s * ρ (a.val + b.val); rw [← hs, h, h']; ring_nf
  sub a a' b b' h h' := by show ρ (a'.val - b'.val) = s * ρ (a.val - b.val); rw [← hs, h, h']; ring_nf
  mul_left c a a' h := by show ρ (c.val * a'.val) = s * ρ (c.val * a.val); rw [← hs, h]; ring_nf
  mul_right c a a' h := by show ρ (a'.val * c.val) = s * ρ (a.val * c.val); rw [← hs, h]; ring_nf
  div c a a' h := by show ρ (a'.val / c.val) = s * ρ (a.val / c.val); rw [← hs, h]; ring_nf
  fma_left c a a' b b' h h' := by
    show ρ (c.val * a'.val + b'.val) = s * ρ (c.val * a.val + b.val); rw [← hs, h, h']; ring_nf
  fma_right c a a' b b' h h' := by
    show ρ (a'.val * c.val + b'.val) = s * ρ (a.val * c.val + b.val); rw [← hs, h, h']; ring_nf
  fms_left c a a' b b' h h' := by
    show ρ (c.val * a'.val - b'.val) = s * ρ (c.val * a.val - b.val); rw [← hs, h, h']; ring_nf
  fms_right c a a' b b' h h' := by
    show ρ (a'.val * c.val - b'.val) = s * ρ (a.val * c.val - b.val); rw [← hs, h, h']; ring_nf

end OTFFT
