/-
What the SIMD primitives are supposed to compute.
-/
import Verif.Model.Simd

namespace OTFFT

/-- Exact arithmetic. Idealisation: the constants are the numbers the literals approximate (see `C34_constants`). -/
noncomputable instance : FArith ℝ where
  toDArith := inferInstance
  ffma a b c := a * b + c
  ffms a b c := a * b - c
  sqrt1_2 := √2 / 2
  h1x := Real.cos (Real.pi / 8)
  h1y := -Real.sin (Real.pi / 8)

/-- the complex number in an `xmm` register -/
def Xmm.toC (x : Xmm ℝ) : ℂ := ⟨x 0, x 1⟩

/-- complex numbers as pairs of reals -/
noncomputable def cpx : ℂ ≃ Xmm ℝ where
  toFun z := ![z.re, z.im]
  invFun := Xmm.toC
  left_inv _ := rfl
  right_inv x := by funext i; fin_cases i <;> rfl

open Complex in
/-- In exact arithmetic the primitives are the operations on complex numbers their names stand for. -/
structure XmmOps.Exact (X : XmmOps ℝ) : Prop where
  add : ∀ a b, (X.addpz a b).toC = a.toC + b.toC
  sub : ∀ a b, (X.subpz a b).toC = a.toC - b.toC
  mul : ∀ a b, (X.mulpz a b).toC = a.toC * b.toC
  div : ∀ a b, b.toC ≠ 0 → (X.divpz a b).toC = a.toC / b.toC
  conj : ∀ a, (X.cnjpz a).toC = (starRingEnd ℂ) a.toC
  neg : ∀ a, (X.negpz a).toC = -a.toC
  jx : ∀ a, (X.jxpz a).toC = I * a.toC
  mjx : ∀ a, (X.mjxpz a).toC = -I * a.toC
  v8x : ∀ a, (X.v8xpz a).toC = exp (I * (Real.pi / 4)) * a.toC
  w8x : ∀ a, (X.w8xpz a).toC = exp (-I * (Real.pi / 4)) * a.toC
  h1x : ∀ a, (X.h1xpz a).toC = exp (-I * (Real.pi / 8)) * a.toC
  h3x : ∀ a, (X.h3xpz a).toC = exp (-I * (3 * Real.pi / 8)) * a.toC
  hfx : ∀ a, (X.hfxpz a).toC = exp (I * (Real.pi / 8)) * a.toC
  hdx : ∀ a, (X.hdxpz a).toC = exp (I * (3 * Real.pi / 8)) * a.toC
  scale : ∀ (r : ℝ) a, (X.mulpd ![r, r] a).toC = r * a.toC
  hadd : ∀ a b, (X.haddpz a b).toC = ⟨a.toC.re + a.toC.im, b.toC.re + b.toC.im⟩

/-- A wide register computes in every lane, for any operands and whatever the rounding, exactly what `xmm` computes;
loads and stores take the complex numbers in order. -/
structure VecOps.LaneWise {F R : Type} {L : Nat} (V : VecOps F L R) (X : XmmOps F) : Prop where
  get : ∀ m l, V.lanes (V.get m) l = ![m (2 * l.val), m (2 * l.val + 1)]
  set : ∀ r (l : Fin L), ![V.set r (2 * l.val), V.set r (2 * l.val + 1)] = V.lanes r l
  cnj : ∀ a l, V.lanes (V.cnj a) l = X.cnjpz (V.lanes a l)
  jx : ∀ a l, V.lanes (V.jx a) l = X.jxpz (V.lanes a l)
  add : ∀ a b l, V.lanes (V.add a b) l = X.addpz (V.lanes a l) (V.lanes b l)
  sub : ∀ a b l, V.lanes (V.sub a b) l = X.subpz (V.lanes a l) (V.lanes b l)
  muld : ∀ a b l, V.lanes (V.muld a b) l = X.mulpd (V.lanes a l) (V.lanes b l)
  divd : ∀ a b l, V.lanes (V.divd a b) l = X.divpd (V.lanes a l) (V.lanes b l)
  mul : ∀ a b l, V.lanes (V.mul a b) l = X.mulpz (V.lanes a l) (V.lanes b l)
  v8x : ∀ a l, V.lanes (V.v8x a) l = X.v8xpz (V.lanes a l)
  w8x : ∀ a l, V.lanes (V.w8x a) l = X.w8xpz (V.lanes a l)
  h1x : ∀ a l, V.lanes (V.h1x a) l = X.h1xpz (V.lanes a l)
  h3x : ∀ a l, V.lanes (V.h3x a) l = X.h3xpz (V.lanes a l)
  hfx : ∀ a l, V.lanes (V.hfx a) l = X.hfxpz (V.lanes a l)
  hdx : ∀ a l, V.lanes (V.hdx a) l = X.hdxpz (V.lanes a l)
  dup : ∀ x l, V.lanes (V.dup x) l = x
  splat : ∀ r l, V.lanes (V.splat r) l = ![r, r]

/-- `x` and `y` round to the same `double`: an integer multiple of `2 ^ -e` with a 53 bit significand is the nearest one
to both. -/
def SameDouble (x y : ℝ) : Prop :=
  ∃ (e : ℕ) (m : ℤ), 2 ^ 52 ≤ |m| ∧ |m| < 2 ^ 53 ∧ |x * 2 ^ e - m| < 1 / 2 ∧ |y * 2 ^ e - m| < 1 / 2

/-- What IEEE 754 guarantees in round-to-nearest (except for the payload of a NaN): addition commutes, subtraction adds
the negation, negation goes through multiplication. Nothing is associative or distributive. -/
class SignLaws (F : Type) [FArith F] : Prop where
  add_comm : ∀ a b : F, fadd a b = fadd b a
  sub_eq : ∀ a b : F, fsub a b = fadd a (fneg b)
  mul_neg : ∀ a b : F, fmul a (fneg b) = fneg (fmul a b)

end OTFFT
