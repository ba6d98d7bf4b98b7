/-
Lemmas about the SIMD primitives.
-/
import Verif.Spec.Simd
import Mathlib.Analysis.SpecialFunctions.Trigonometric.Bounds
import Mathlib.Tactic.FinCases
import Mathlib.Tactic.FieldSimp

namespace OTFFT

/-! ### lanes -/

section lanes
variable {F : Type} [FArith F]

omit [FArith F] in
theorem XmmOps.vec_laneWise (X : XmmOps F) : X.vec.LaneWise X where
  get m l := by fin_cases l; rfl
  set r l := by fin_cases l; funext i; fin_cases i <;> rfl
  cnj _ _ := rfl
  jx _ _ := rfl
  add _ _ _ := rfl
  sub _ _ _ := rfl
  muld _ _ _ := rfl
  divd _ _ _ := rfl
  mul _ _ _ := rfl
  v8x _ _ := rfl
  w8x _ _ := rfl
  h1x _ _ := rfl
  h3x _ _ := rfl
  hfx _ _ := rfl
  hdx _ _ := rfl
  dup _ _ := rfl
  splat _ _ := rfl

omit [FArith F] in
theorem VecOps.LaneWise.pair {L : Nat} {R : Type} {V : VecOps F L R} {X : XmmOps F} (h : V.LaneWise X) :
    V.pair.LaneWise X where
  get m l := by
    refine Fin.addCases (fun i => ?_) (fun i => ?_) l
    · simp only [VecOps.pair, Fin.append_left, h.get, Fin.val_castAdd]
    · simp only [VecOps.pair, Fin.append_right, h.get, Fin.val_natAdd]
      rw [show 2 * (L + i.val) = 2 * L + 2 * i.val by ring, Nat.add_assoc]
  set r l := by
    refine Fin.addCases (fun i => ?_) (fun i => ?_) l
    · have := i.isLt
      simp only [VecOps.pair, Fin.append_left, ← h.set, Fin.val_castAdd]
      rw [if_pos (by omega), if_pos (by omega)]
    · simp only [VecOps.pair, Fin.append_right, ← h.set, Fin.val_natAdd]
      rw [if_neg (by omega), if_neg (by omega), show 2 * (L + i.val) - 2 * L = 2 * i.val by omega,
        show 2 * (L + i.val) + 1 - 2 * L = 2 * i.val + 1 by omega]
  cnj a l := by refine Fin.addCases (fun i => ?_) (fun i => ?_) l <;> simp only [VecOps.pair, Fin.append_left, Fin.append_right, h.cnj]
  jx a l := by refine Fin.addCases (fun i => ?_) (fun i => ?_) l <;> simp only [VecOps.pair, Fin.append_left, Fin.append_right, h.jx]
  add a b l := by refine Fin.addCases (fun i => ?_) (fun i => ?_) l <;> simp only [VecOps.pair, Fin.append_left, Fin.append_right, h.add]
  sub a b l := by refine Fin.addCases (fun i => ?_) (fun i => ?_) l <;> simp only [VecOps.pair, Fin.append_left, Fin.append_right, h.sub]
  muld a b l := by refine Fin.addCases (fun i => ?_) (fun i => ?_) l <;> simp only [VecOps.pair, Fin.append_left, Fin.append_right, h.muld]
  divd a b l := by refine Fin.addCases (fun i => ?_) (fun i => ?_) l <;> simp only [VecOps.pair, Fin.append_left, Fin.append_right, h.divd]
  mul a b l := by refine Fin.addCases (fun i => ?_) (fun i => ?_) l <;> simp only [VecOps.pair, Fin.append_left, Fin.append_right, h.mul]
  v8x a l := by refine Fin.addCases (fun i => ?_) (fun i => ?_) l <;> simp only [VecOps.pair, Fin.append_left, Fin.append_right, h.v8x]
  w8x a l := by refine Fin.addCases (fun i => ?_) (fun i => ?_) l <;> simp only [VecOps.pair, Fin.append_left, Fin.append_right, h.w8x]
  h1x a l := by refine Fin.addCases (fun i => ?_) (fun i => ?_) l <;> simp only [VecOps.pair, Fin.append_left, Fin.append_right, h.h1x]
  h3x a l := by refine Fin.addCases (fun i => ?_) (fun i => ?_) l <;> simp only [VecOps.pair, Fin.append_left, Fin.append_right, h.h3x]
  hfx a l := by refine Fin.addCases (fun i => ?_) (fun i => ?_) l <;> simp only [VecOps.pair, Fin.append_left, Fin.append_right, h.hfx]
  hdx a l := by refine Fin.addCases (fun i => ?_) (fun i => ?_) l <;> simp only [VecOps.pair, Fin.append_left, Fin.append_right, h.hdx]
  dup x l := by refine Fin.addCases (fun i => ?_) (fun i => ?_) l <;> simp only [VecOps.pair, Fin.append_left, Fin.append_right, h.dup]
  splat r l := by refine Fin.addCases (fun i => ?_) (fun i => ?_) l <;> simp only [VecOps.pair, Fin.append_left, Fin.append_right, h.splat]

theorem Avx.laneWise (fma : Bool) : (Avx.ops (F := F) fma).LaneWise (Sse3.ops fma) where
  get m l := by fin_cases l <;> rfl
  set r l := by fin_cases l <;> (funext i; fin_cases i <;> rfl)
  cnj a l := by fin_cases l <;> (funext i; fin_cases i <;> rfl)
  jx a l := by fin_cases l <;> (funext i; fin_cases i <;> rfl)
  add a b l := by fin_cases l <;> (funext i; fin_cases i <;> rfl)
  sub a b l := by fin_cases l <;> (funext i; fin_cases i <;> rfl)
  muld a b l := by fin_cases l <;> (funext i; fin_cases i <;> rfl)
  divd a b l := by fin_cases l <;> (funext i; fin_cases i <;> rfl)
  mul a b l := by cases fma <;> fin_cases l <;> (funext i; fin_cases i <;> rfl)
  v8x a l := by fin_cases l <;> (funext i; fin_cases i <;> rfl)
  w8x a l := by fin_cases l <;> (funext i; fin_cases i <;> rfl)
  h1x a l := by cases fma <;> fin_cases l <;> (funext i; fin_cases i <;> rfl)
  h3x a l := by cases fma <;> fin_cases l <;> (funext i; fin_cases i <;> rfl)
  hfx a l := by cases fma <;> fin_cases l <;> (funext i; fin_cases i <;> rfl)
  hdx a l := by cases fma <;> fin_cases l <;> (funext i; fin_cases i <;> rfl)
  dup x l := by fin_cases l <;> (funext i; fin_cases i <;> rfl)
  splat r l := by fin_cases l <;> (funext i; fin_cases i <;> rfl)

theorem Avx512.laneWise [SignLaws F] : (Avx512.ops (F := F)).LaneWise (Sse3.ops true) where
  get m l := by fin_cases l <;> rfl
  set r l := by fin_cases l <;> (funext i; fin_cases i <;> rfl)
  cnj a l := by fin_cases l <;> (funext i; fin_cases i <;> rfl)
  jx a l := by fin_cases l <;> (funext i; fin_cases i <;> rfl)
  add a b l := by fin_cases l <;> (funext i; fin_cases i <;> rfl)
  sub a b l := by fin_cases l <;> (funext i; fin_cases i <;> rfl)
  muld a b l := by fin_cases l <;> (funext i; fin_cases i <;> rfl)
  divd a b l := by fin_cases l <;> (funext i; fin_cases i <;> rfl)
  mul a b l := by fin_cases l <;> (funext i; fin_cases i <;> rfl)
  v8x a l := by
    fin_cases l <;> (funext i; fin_cases i <;>
      first
        | rfl
        | exact congrArg (fmul sqrt1_2) (SignLaws.sub_eq _ _).symm)
  w8x a l := by fin_cases l <;> (funext i; fin_cases i <;> rfl)
  h1x a l := by fin_cases l <;> (funext i; fin_cases i <;> rfl)
  h3x a l := by fin_cases l <;> (funext i; fin_cases i <;> rfl)
  hfx a l := by fin_cases l <;> (funext i; fin_cases i <;> rfl)
  hdx a l := by fin_cases l <;> (funext i; fin_cases i <;> rfl)
  dup x l := by fin_cases l <;> (funext i; fin_cases i <;> rfl)
  splat r l := by fin_cases l <;> (funext i; fin_cases i <;> rfl)

/-! ### all instruction sets without FMA are the same -/

variable [SignLaws F]

theorem Sse2.mulpz_eq (a b : Xmm F) : Sse2.mulpz a b = NoSse.mulpz a b := by
  funext i
  fin_cases i
  · show fadd (fmul (a 0) (b 0)) (fmul (a 1) (fneg (b 1))) = fsub _ _
    rw [SignLaws.mul_neg, SignLaws.sub_eq]
  · rfl

omit [SignLaws F] in
theorem Sse3.mulpz_eq (a b : Xmm F) : Sse3.mulpz false a b = NoSse.mulpz a b := by
  funext i
  fin_cases i <;> rfl

omit [FArith F] [SignLaws F] in
theorem XmmOps.ext' {X Y : XmmOps F} (h1 : X.cnjpz = Y.cnjpz) (h2 : X.jxpz = Y.jxpz) (h3 : X.negpz = Y.negpz)
    (h4 : X.mjxpz = Y.mjxpz) (h5 : X.addpz = Y.addpz) (h6 : X.subpz = Y.subpz) (h7 : X.mulpd = Y.mulpd)
    (h8 : X.divpd = Y.divpd) (h9 : X.haddpz = Y.haddpz) (h10 : X.mulpz = Y.mulpz) (h11 : X.divpz = Y.divpz)
    (h12 : X.v8xpz = Y.v8xpz) (h13 : X.w8xpz = Y.w8xpz) (h14 : X.h1xpz = Y.h1xpz) (h15 : X.h3xpz = Y.h3xpz)
    (h16 : X.hfxpz = Y.hfxpz) (h17 : X.hdxpz = Y.hdxpz) : X = Y := by
  cases X; cases Y
  simp_all

theorem Sse3.ops_eq : Sse3.ops (F := F) false = NoSse.ops := by
  have hm : Sse3.mulpz (F := F) false = NoSse.mulpz := funext fun a => funext fun b => Sse3.mulpz_eq a b
  have hc : Sse.cnjpz (F := F) = NoSse.cnjpz := by funext a i; fin_cases i <;> rfl
  apply XmmOps.ext'
  · exact hc
  · funext a i; fin_cases i <;> rfl
  · funext a i; fin_cases i <;> rfl
  · funext a i; fin_cases i <;> rfl
  · funext a b i; fin_cases i <;> rfl
  · funext a b i; fin_cases i <;> rfl
  · funext a b i; fin_cases i <;> rfl
  · funext a b i; fin_cases i <;> rfl
  · funext a b i; fin_cases i <;> rfl
  · exact hm
  · funext a b i; fin_cases i <;> rfl
  · funext a i
    fin_cases i
    · rfl
    · exact congrArg (fmul sqrt1_2) (SignLaws.add_comm _ _)
  · funext a i
    fin_cases i
    · rfl
    · exact congrArg (fmul sqrt1_2) (SignLaws.sub_eq _ _).symm
  · funext a i; fin_cases i <;> rfl
  · funext a i; fin_cases i <;> rfl
  · funext a i; fin_cases i <;> rfl
  · funext a i; fin_cases i <;> rfl

theorem Sse2.ops_eq : Sse2.ops (F := F) = NoSse.ops := by
  have hm : Sse2.mulpz (F := F) = NoSse.mulpz := funext fun a => funext fun b => Sse2.mulpz_eq a b
  have hc : Sse.cnjpz (F := F) = NoSse.cnjpz := by funext a i; fin_cases i <;> rfl
  have h1 : ∀ c a, Sse2.mulpz (F := F) c a = NoSse.mulpz c a := Sse2.mulpz_eq
  apply XmmOps.ext'
  · exact hc
  · funext a i; fin_cases i <;> rfl
  · funext a i; fin_cases i <;> rfl
  · funext a i; fin_cases i <;> rfl
  · funext a b i; fin_cases i <;> rfl
  · funext a b i; fin_cases i <;> rfl
  · funext a b i; fin_cases i <;> rfl
  · funext a b i; fin_cases i <;> rfl
  · funext a b i; fin_cases i <;> rfl
  · exact hm
  · funext a b i
    show Sse2.divpz a b i = NoSse.divpz a b i
    unfold Sse2.divpz NoSse.divpz
    rw [hm, hc]
    fin_cases i
    · rfl
    · exact congrArg (fdiv _) (SignLaws.add_comm _ _)
  · funext a i
    fin_cases i
    · exact congrArg (fmul sqrt1_2) (SignLaws.sub_eq _ _).symm
    · exact congrArg (fmul sqrt1_2) (SignLaws.add_comm _ _)
  · funext a i
    fin_cases i
    · rfl
    · exact congrArg (fmul sqrt1_2) (SignLaws.sub_eq _ _).symm
  · funext a; exact h1 _ a
  · funext a; exact h1 _ a
  · funext a; exact h1 _ a
  · funext a; exact h1 _ a

theorem Target.xmm_eq (i : Target) (h : i.fma = false) : i.xmm F = NoSse.ops := by
  unfold Target.xmm
  split_ifs
  · rw [h, Sse3.ops_eq]
  · exact Sse2.ops_eq
  · rfl

end lanes

/-! ### exact arithmetic -/

instance : SignLaws ℝ where
  add_comm := add_comm
  sub_eq := sub_eq_add_neg
  mul_neg a b := mul_neg a b

theorem Sse3.fma_exact : Sse3.ops (F := ℝ) true = Sse3.ops false := by
  have : Sse3.mulpz (F := ℝ) true = Sse3.mulpz false := by
    funext a b i; fin_cases i <;> rfl
  unfold Sse3.ops Sse3.divpz
  rw [this]

theorem Target.xmm_exact (i : Target) : i.xmm ℝ = NoSse.ops := by
  unfold Target.xmm
  split_ifs
  · cases i.fma
    · exact Sse3.ops_eq
    · rw [Sse3.fma_exact, Sse3.ops_eq]
  · exact Sse2.ops_eq
  · rfl

theorem exp_I_mul (t : ℝ) : Complex.exp (Complex.I * t) = ⟨Real.cos t, Real.sin t⟩ := by
  rw [mul_comm]
  apply Complex.ext
  · simp [Complex.exp_ofReal_mul_I_re]
  · simp [Complex.exp_ofReal_mul_I_im]

theorem exp_neg_I_mul (t : ℝ) : Complex.exp (-Complex.I * t) = ⟨Real.cos t, -Real.sin t⟩ := by
  have := exp_I_mul (-t)
  rw [Real.cos_neg, Real.sin_neg] at this
  rw [← this]
  congr 1
  push_cast
  ring

theorem cos_3pi8 : Real.cos (3 * Real.pi / 8) = Real.sin (Real.pi / 8) := by
  rw [← Real.cos_pi_div_two_sub]
  congr 1
  ring

theorem sin_3pi8 : Real.sin (3 * Real.pi / 8) = Real.cos (Real.pi / 8) := by
  rw [← Real.sin_pi_div_two_sub]
  congr 1
  ring

theorem mk_mul_mk (a b : ℝ) (z : ℂ) : (⟨a, b⟩ : ℂ) * z = ⟨a * z.re - b * z.im, a * z.im + b * z.re⟩ := by
  apply Complex.ext <;> simp

theorem NoSse.exact : (NoSse.ops (F := ℝ)).Exact where
  add a b := rfl
  sub a b := rfl
  mul a b := rfl
  div a b _ := by
    have h : Complex.normSq b.toC = b 0 * b 0 + b 1 * b 1 := by simp [Complex.normSq_apply, Xmm.toC]
    apply Complex.ext
    · rw [Complex.div_re, h]
      show (a 0 * b 0 - a 1 * (-b 1)) / (b 0 * b 0 + b 1 * b 1) = a 0 * b 0 / _ + a 1 * b 1 / _
      ring
    · rw [Complex.div_im, h]
      show (a 0 * (-b 1) + a 1 * b 0) / (b 0 * b 0 + b 1 * b 1) = a 1 * b 0 / _ - a 0 * b 1 / _
      ring
  conj a := rfl
  neg a := rfl
  jx a := by
    rw [show Complex.I = ⟨0, 1⟩ from rfl, mk_mul_mk]
    apply Complex.ext
    · show -a 1 = 0 * a 0 - 1 * a 1; ring
    · show a 0 = 0 * a 1 + 1 * a 0; ring
  mjx a := by
    rw [show -Complex.I = ⟨0, -1⟩ from by apply Complex.ext <;> simp, mk_mul_mk]
    apply Complex.ext
    · show a 1 = 0 * a 0 - (-1) * a 1; ring
    · show -a 0 = 0 * a 1 + (-1) * a 0; ring
  v8x a := by
    rw [show (Real.pi : ℂ) / 4 = ((Real.pi / 4 : ℝ) : ℂ) by push_cast; rfl, exp_I_mul, mk_mul_mk, Real.cos_pi_div_four,
      Real.sin_pi_div_four]
    apply Complex.ext
    · show √2 / 2 * (a 0 - a 1) = √2 / 2 * a 0 - √2 / 2 * a 1; ring
    · show √2 / 2 * (a 0 + a 1) = √2 / 2 * a 1 + √2 / 2 * a 0; ring
  w8x a := by
    rw [show (Real.pi : ℂ) / 4 = ((Real.pi / 4 : ℝ) : ℂ) by push_cast; rfl, exp_neg_I_mul, mk_mul_mk,
      Real.cos_pi_div_four, Real.sin_pi_div_four]
    apply Complex.ext
    · show √2 / 2 * (a 0 + a 1) = √2 / 2 * a 0 - (-(√2 / 2)) * a 1; ring
    · show √2 / 2 * (a 1 - a 0) = √2 / 2 * a 1 + (-(√2 / 2)) * a 0; ring
  h1x a := by
    rw [show (Real.pi : ℂ) / 8 = ((Real.pi / 8 : ℝ) : ℂ) by push_cast; rfl, exp_neg_I_mul, mk_mul_mk]
    rfl
  h3x a := by
    rw [show 3 * (Real.pi : ℂ) / 8 = ((3 * Real.pi / 8 : ℝ) : ℂ) by push_cast; rfl, exp_neg_I_mul, mk_mul_mk, cos_3pi8,
      sin_3pi8, ← neg_neg (Real.sin (Real.pi / 8))]
    rfl
  hfx a := by
    rw [show (Real.pi : ℂ) / 8 = ((Real.pi / 8 : ℝ) : ℂ) by push_cast; rfl, exp_I_mul, mk_mul_mk,
      ← neg_neg (Real.sin (Real.pi / 8))]
    rfl
  hdx a := by
    rw [show 3 * (Real.pi : ℂ) / 8 = ((3 * Real.pi / 8 : ℝ) : ℂ) by push_cast; rfl, exp_I_mul, mk_mul_mk, cos_3pi8,
      sin_3pi8, ← neg_neg (Real.sin (Real.pi / 8))]
    rfl
  scale r a := by
    apply Complex.ext
    · show r * a 0 = _; simp [Xmm.toC]
    · show r * a 1 = _; simp [Xmm.toC]
  hadd a b := rfl


theorem CArith.ext' {F C : Type} {A B : CArith F C} (h1 : A.addpz = B.addpz) (h2 : A.subpz = B.subpz)
    (h3 : A.mulpz = B.mulpz) (h4 : A.cnjpz = B.cnjpz) (h5 : A.jxpz = B.jxpz) (h6 : A.v8xpz = B.v8xpz)
    (h7 : A.w8xpz = B.w8xpz) (h8 : A.h1xpz = B.h1xpz) (h9 : A.h3xpz = B.h3xpz) (h10 : A.hfxpz = B.hfxpz)
    (h11 : A.hdxpz = B.hdxpz) (h12 : A.scl = B.scl) (h13 : A.cmk = B.cmk) (h14 : A.re = B.re) (h15 : A.im = B.im)
    (h16 : A.cmul = B.cmul) (h17 : A.mulpd = B.mulpd) (h18 : A.expj = B.expj) : A = B := by
  match A, B with
  | @CArith.mk _ _ ⟨p1, p2, p3, p4, p5, p6, p7, p8, p9, p10, p11, p12⟩ p13 p14 p15 p16 p17 p18, @CArith.mk _ _ ⟨q1, q2, q3, q4, q5, q6, q7, q8, q9, q10, q11, q12⟩ q13 q14 q15 q16 q17 q18 =>
    obtain rfl : p1 = q1 := h1
    obtain rfl : p2 = q2 := h2
    obtain rfl : p3 = q3 := h3
    obtain rfl : p4 = q4 := h4
    obtain rfl : p5 = q5 := h5
    obtain rfl : p6 = q6 := h6
    obtain rfl : p7 = q7 := h7
    obtain rfl : p8 = q8 := h8
    obtain rfl : p9 = q9 := h9
    obtain rfl : p10 = q10 := h10
    obtain rfl : p11 = q11 := h11
    obtain rfl : p12 = q12 := h12
    obtain rfl : p13 = q13 := h13
    obtain rfl : p14 = q14 := h14
    obtain rfl : p15 = q15 := h15
    obtain rfl : p16 = q16 := h16
    obtain rfl : p17 = q17 := h17
    obtain rfl : p18 = q18 := h18
    rfl

theorem XmmOps.Exact.arith {X : XmmOps ℝ} (h : X.Exact) (hd : ∀ a b, X.mulpd a b = ![a 0 * b 0, a 1 * b 1]) :
    X.arith cpx = (inferInstance : CArith ℝ ℂ) := by
  have e : ∀ z : ℂ, (cpx z).toC = z := fun _ => rfl
  apply CArith.ext'
  · funext a b; exact h.add _ _
  · funext a b; exact h.sub _ _
  · funext a b; exact h.mul _ _
  · funext a; exact h.conj _
  · funext a; exact h.jx _
  · funext a; exact h.v8x _
  · funext a; exact h.w8x _
  · funext a; exact h.h1x _
  · funext a; exact h.h3x _
  · funext a; exact h.hfx _
  · funext a; exact h.hdx _
  · funext r a; exact h.scale _ _
  · rfl
  · rfl
  · rfl
  · funext a b
    show Xmm.toC ![a.re * b.re - a.im * b.im, a.re * b.im + a.im * b.re] = a * b
    rfl
  · funext a b
    show (X.mulpd (cpx a) (cpx b)).toC = _
    rw [hd]
    rfl
  · funext t
    show Xmm.toC ![((1 : ℕ) : ℝ) * Real.cos t, ((1 : ℕ) : ℝ) * Real.sin t] = Complex.exp (t * Complex.I)
    rw [mul_comm (t : ℂ), exp_I_mul]
    simp [Xmm.toC]

end OTFFT
