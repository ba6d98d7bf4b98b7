/-
Two arithmetics side by side; IEEE 754 doubles with the exception flags.
-/
import Verif.Spec.Binary64
import Verif.Spec.Pool

namespace OTFFT

/-! ### two arithmetics -/

/-- `r` holds between the constants of two arithmetics and is preserved by all their operations. -/
structure Linked {E F : Type} [FArith E] [FArith F] (r : E → F → Prop) : Prop where
  nat : ∀ n, r (fofNat n) (fofNat n)
  pi : r fpi fpi
  sqrt1_2 : r sqrt1_2 sqrt1_2
  h1x : r h1x h1x
  h1y : r h1y h1y
  neg : ∀ {a a'}, r a a' → r (fneg a) (fneg a')
  add : ∀ {a a' b b'}, r a a' → r b b' → r (fadd a b) (fadd a' b')
  sub : ∀ {a a' b b'}, r a a' → r b b' → r (fsub a b) (fsub a' b')
  mul : ∀ {a a' b b'}, r a a' → r b b' → r (fmul a b) (fmul a' b')
  div : ∀ {a a' b b'}, r a a' → r b b' → r (fdiv a b) (fdiv a' b')
  fma : ∀ {a a' b b' c c'}, r a a' → r b b' → r c c' → r (ffma a b c) (ffma a' b' c')
  fms : ∀ {a a' b b' c c'}, r a a' → r b b' → r c c' → r (ffms a b c) (ffms a' b' c')
  sqrt : ∀ {a a'}, r a a' → r (fsqrt a) (fsqrt a')
  cos : ∀ {a a'}, r a a' → r (fcos a) (fcos a')
  sin : ∀ {a a'}, r a a' → r (fsin a) (fsin a')
  /-- the square roots the compiler computes for the powers of two that fit an `int` -/
  mysqrt : ∀ k < 31, r (mysqrt (fofNat (2 ^ k))) (mysqrt (fofNat (2 ^ k)))

/-- both components are related -/
def BothOf {E F : Type} (r : E → F → Prop) (a : Xmm E) (b : Xmm F) : Prop := r (a 0) (b 0) ∧ r (a 1) (b 1)

/-- The transforms of class `k` and length `n`, compiled for `i`, carry the relation `R` between numbers of two arithmetics over
from the input to the result: the same call in both arithmetics, with inputs that are related element by element, gives results
that are related element by element. -/
def Transfers {E F : Type} [FArith E] [FArith F] (i : Target) (thr : Thr) (k : Kind) (n : ℕ) (R : Xmm E → Xmm F → Prop) : Prop :=
  letI := i.arith E
  letI := i.arith F
  ∀ (w : World (Xmm E)) (w' : World (Xmm F)) (c : (k.cls (Xmm E) thr).Call) (c' : (k.cls (Xmm F) thr).Call)
    (v : ℕ → Xmm E) (v' : ℕ → Xmm F), w.WF → w'.WF → k.callOK n c w.heap → k.callOK n c' w'.heap → k.fn c = k.fn c' →
    Arr w.heap (k.input c) (k.need n c) v → Arr w'.heap (k.input c') (k.need n c') v' →
    (∀ t < k.need n c, R (v t) (v' t)) →
    ∃ (out : ℕ → Xmm E) (out' : ℕ → Xmm F),
      ComputesIn (k.cls (Xmm E) thr) n [c] w (k.writes n c) (k.output c) n out ∧
      ComputesIn (k.cls (Xmm F) thr) n [c'] w' (k.writes n c') (k.output c') n out' ∧
      ∀ t < n, R (out t) (out' t)

/-! ### exception flags -/

/-- An operation with the exact result `x` delivers `d` and raises a flag (on x86): overflow, division by zero or an invalid
operation, if `d` is not a finite number; underflow, if `x` rounded to 53 bits is below the normal numbers and `x` is not a
double. -/
def raises (x : ℝ) (d : Dbl64) : Prop := d.notFinite ∨ (|rnd53 x| < 1 / 2 ^ 1022 ∧ rnd64 x ≠ x)

/-- A double together with the information whether a flag was raised by one of the operations that led to it. -/
structure Flagged where
  d : Dbl64
  raised : Prop

noncomputable instance : Inhabited Flagged := ⟨⟨default, False⟩⟩

/-- a flag was raised, or the double is a number of value `x` -/
def Quiet (a : Flagged) (x : Rounded rnd53) : Prop := a.raised ∨ ∃ z, a.d.d = .num x.val z

/-- a double as it comes from outside: infinities and NaN count as raised -/
noncomputable def Flagged.input (d : Dbl64) : Flagged := ⟨d, d.notFinite⟩

/-- IEEE 754 arithmetic with flags. (Integers below 2^53 are doubles; the library has none above 2^31.) -/
noncomputable instance [Libm] : FArith Flagged where
  fadd a b := ⟨fadd a.d b.d, a.raised ∨ b.raised ∨ raises (a.d.val + b.d.val) (fadd a.d b.d)⟩
  fsub a b := ⟨fsub a.d b.d, a.raised ∨ b.raised ∨ raises (a.d.val - b.d.val) (fsub a.d b.d)⟩
  fmul a b := ⟨fmul a.d b.d, a.raised ∨ b.raised ∨ raises (a.d.val * b.d.val) (fmul a.d b.d)⟩
  fdiv a b := ⟨fdiv a.d b.d, a.raised ∨ b.raised ∨ raises (a.d.val / b.d.val) (fdiv a.d b.d)⟩
  fneg a := ⟨fneg a.d, a.raised⟩
  fsqrt a := ⟨fsqrt a.d, a.raised ∨ raises (√a.d.val) (fsqrt a.d)⟩
  fcos a := ⟨fcos a.d, a.raised ∨ raises (Libm.cos a.d.val) (fcos a.d)⟩
  fsin a := ⟨fsin a.d, a.raised ∨ raises (Libm.sin a.d.val) (fsin a.d)⟩
  fpi := ⟨fpi, False⟩
  fofNat n := ⟨fofNat n, 2 ^ 53 ≤ n⟩
  ffma a b c := ⟨ffma a.d b.d c.d, a.raised ∨ b.raised ∨ c.raised ∨ raises (a.d.val * b.d.val + c.d.val) (ffma a.d b.d c.d)⟩
  ffms a b c := ⟨ffms a.d b.d c.d, a.raised ∨ b.raised ∨ c.raised ∨ raises (a.d.val * b.d.val - c.d.val) (ffms a.d b.d c.d)⟩
  sqrt1_2 := ⟨sqrt1_2, False⟩
  h1x := ⟨h1x, False⟩
  h1y := ⟨h1y, False⟩

end OTFFT
