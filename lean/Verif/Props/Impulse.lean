/-
C67: impulses and constants are transformed without any rounding error.
-/
import Verif.Proof.Impulse
import Verif.Props.Normal
import Verif.Props.Identities
import Verif.Proof.Binary64

namespace OTFFT.Props

open Intrin

/-! ### the primitives -/

/-- Arithmetic that computes exactly with 0 and 1; `Rep` are the numbers that are representable. -/
structure ZeroOne (F : Type) [FArith F] (Rep : F → Prop) : Prop where
  repZ : Rep (fofNat 0)
  repO : Rep (fofNat 1)
  repAdd : ∀ a b : F, Rep (fadd a b)
  subSelf : ∀ a : F, fsub a a = fofNat 0
  addZ : ∀ {a : F}, Rep a → fadd a (fofNat 0) = a
  zAdd : ∀ {a : F}, Rep a → fadd (fofNat 0) a = a
  subZ : ∀ {a : F}, Rep a → fsub a (fofNat 0) = a
  negZ : fneg (fofNat 0 : F) = fofNat 0
  mulZ : ∀ a : F, fmul a (fofNat 0) = fofNat 0
  zMul : ∀ a : F, fmul (fofNat 0) a = fofNat 0
  mulO : ∀ {a : F}, Rep a → fmul a (fofNat 1) = a
  oMul : ∀ {a : F}, Rep a → fmul (fofNat 1) a = a
  fmaZ : ∀ (a : F) {c : F}, Rep c → ffma a (fofNat 0) c = c
  fmaz : ∀ (a : F) {c : F}, Rep c → ffma (fofNat 0) a c = c
  fmaO : ∀ {a : F}, Rep a → ffma a (fofNat 1) (fofNat 0) = a
  fmao : ∀ {a : F}, Rep a → ffma (fofNat 1) a (fofNat 0) = a
  fmsZ : ∀ a : F, ffms a (fofNat 0) (fofNat 0) = fofNat 0
  fmsz : ∀ a : F, ffms (fofNat 0) a (fofNat 0) = fofNat 0
  fmsO : ∀ {a : F}, Rep a → ffms a (fofNat 1) (fofNat 0) = a
  fmso : ∀ {a : F}, Rep a → ffms (fofNat 1) a (fofNat 0) = a
  cos0 : fcos (fofNat 0 : F) = fofNat 1
  sin0 : fsin (fofNat 0 : F) = fofNat 0

variable {F : Type} [FArith F] {Rep : F → Prop}

/-- zero and one as complex numbers -/
def cZero (F : Type) [FArith F] : Xmm F := ![fofNat 0, fofNat 0]
/-- one -/
def cOne (F : Type) [FArith F] : Xmm F := ![fofNat 1, fofNat 0]

theorem ext2 {a b : Xmm F} (h0 : a 0 = b 0) (h1 : a 1 = b 1) : a = b := by
  funext j; fin_cases j
  · exact h0
  · exact h1

/-- products with 0 and 1 -/
structure MulOK (Rep : F → Prop) (m : Xmm F → Xmm F → Xmm F) : Prop where
  mulO : ∀ w, m w (cZero F) = cZero F
  Omul : ∀ w, m (cZero F) w = cZero F
  Imul : ∀ {a}, Rep (a 0) ∧ Rep (a 1) → m (cOne F) a = a
  mulI : ∀ {a}, Rep (a 0) ∧ Rep (a 1) → m a (cOne F) = a

theorem noSse_mul (Z : ZeroOne F Rep) : MulOK Rep (NoSse.mulpz (F := F)) where
  mulO w := ext2 (by simp [NoSse.mulpz, cZero, Z.mulZ, Z.subZ Z.repZ]) (by simp [NoSse.mulpz, cZero, Z.mulZ, Z.addZ Z.repZ])
  Omul w := ext2 (by simp [NoSse.mulpz, cZero, Z.zMul, Z.subZ Z.repZ]) (by simp [NoSse.mulpz, cZero, Z.zMul, Z.addZ Z.repZ])
  Imul h := ext2 (by simp [NoSse.mulpz, cOne, Z.zMul, Z.oMul h.1, Z.subZ h.1]) (by simp [NoSse.mulpz, cOne, Z.zMul, Z.oMul h.2, Z.addZ h.2])
  mulI h := ext2 (by simp [NoSse.mulpz, cOne, Z.mulZ, Z.mulO h.1, Z.subZ h.1]) (by simp [NoSse.mulpz, cOne, Z.mulZ, Z.mulO h.2, Z.zAdd h.2])

theorem sse2_mulpz (a b : Xmm F) : Sse2.mulpz a b = ![fadd (fmul (a 0) (b 0)) (fmul (a 1) (fneg (b 1))), fadd (fmul (a 0) (b 1)) (fmul (a 1) (b 0))] := ext2 rfl rfl

theorem sse2_mul (Z : ZeroOne F Rep) : MulOK Rep (Sse2.mulpz (F := F)) where
  mulO w := by rw [sse2_mulpz]; exact ext2 (by simp [cZero, Z.mulZ, Z.negZ, Z.addZ Z.repZ]) (by simp [cZero, Z.mulZ, Z.addZ Z.repZ])
  Omul w := by rw [sse2_mulpz]; exact ext2 (by simp [cZero, Z.zMul, Z.addZ Z.repZ]) (by simp [cZero, Z.zMul, Z.addZ Z.repZ])
  Imul h := by rw [sse2_mulpz]; exact ext2 (by simp [cOne, Z.zMul, Z.oMul h.1, Z.addZ h.1]) (by simp [cOne, Z.zMul, Z.oMul h.2, Z.addZ h.2])
  mulI h := by rw [sse2_mulpz]; exact ext2 (by simp [cOne, Z.mulZ, Z.negZ, Z.mulO h.1, Z.addZ h.1]) (by simp [cOne, Z.mulZ, Z.mulO h.2, Z.zAdd h.2])

theorem sse3_mulpz (a b : Xmm F) : Sse3.mulpz false a b = ![fsub (fmul (a 0) (b 0)) (fmul (a 1) (b 1)), fadd (fmul (a 0) (b 1)) (fmul (a 1) (b 0))] := ext2 rfl rfl
theorem sse3_mulpz_fma (a b : Xmm F) : Sse3.mulpz true a b = ![ffms (a 0) (b 0) (fmul (a 1) (b 1)), ffma (a 0) (b 1) (fmul (a 1) (b 0))] := ext2 rfl rfl

theorem sse3_mul (Z : ZeroOne F Rep) (fma : Bool) : MulOK Rep (Sse3.mulpz (F := F) fma) := by
  cases fma
  · have h : (Sse3.mulpz false : Xmm F → Xmm F → Xmm F) = NoSse.mulpz := by funext a b; exact sse3_mulpz a b
    rw [h]; exact noSse_mul Z
  · exact
    { mulO := fun w => by rw [sse3_mulpz_fma]; exact ext2 (by simp [cZero, Z.mulZ, Z.fmsZ]) (by simp [cZero, Z.mulZ, Z.fmaZ _ Z.repZ])
      Omul := fun w => by rw [sse3_mulpz_fma]; exact ext2 (by simp [cZero, Z.zMul, Z.fmsz]) (by simp [cZero, Z.zMul, Z.fmaz _ Z.repZ])
      Imul := fun h => by rw [sse3_mulpz_fma]; exact ext2 (by simp [cOne, Z.zMul, Z.fmso h.1]) (by simp [cOne, Z.zMul, Z.fmao h.2])
      mulI := fun h => by rw [sse3_mulpz_fma]; exact ext2 (by simp [cOne, Z.mulZ, Z.fmsO h.1]) (by simp [cOne, Z.mulO h.2, Z.fmaZ _ h.2]) }

theorem arith_flat (Z : ZeroOne F Rep) {X : XmmOps F} (hm : MulOK Rep X.mulpz)
    (add : ∀ a b, X.addpz a b = ![fadd (a 0) (b 0), fadd (a 1) (b 1)]) (sub : ∀ a b, X.subpz a b = ![fsub (a 0) (b 0), fsub (a 1) (b 1)])
    (cnj : ∀ a, X.cnjpz a = ![a 0, fneg (a 1)]) (jx : ∀ a, X.jxpz a = ![fneg (a 1), a 0])
    (v8 : X.v8xpz (cZero F) = cZero F) (w8 : X.w8xpz (cZero F) = cZero F)
    (h : ∃ a b c d, X.h1xpz = X.mulpz a ∧ X.h3xpz = X.mulpz b ∧ X.hfxpz = X.mulpz c ∧ X.hdxpz = X.mulpz d) :
    letI := X.arith (Equiv.refl _)
    FlatLaws (F := F) (C := Xmm F) (cZero F) (cOne F) (fun a => Rep (a 0) ∧ Rep (a 1)) := by
  letI := X.arith (Equiv.refl _)
  obtain ⟨k1, k2, k3, k4, e1, e3, ef, ed⟩ := h
  have hadd : ∀ a b : Xmm F, addpz a b = ![fadd (a 0) (b 0), fadd (a 1) (b 1)] := add
  have hsub : ∀ a b : Xmm F, subpz a b = ![fsub (a 0) (b 0), fsub (a 1) (b 1)] := sub
  have hexp : ∀ t : F, t = fofNat 0 → (Cpx.expj t : Xmm F) = cOne F := by
    rintro _ rfl
    refine ext2 (show fmul (fofNat 1) (fcos (fofNat 0)) = (fofNat 1 : F) from ?_) (show fmul (fofNat 1) (fsin (fofNat 0)) = (fofNat 0 : F) from ?_)
    · rw [Z.cos0, Z.mulO Z.repO]
    · rw [Z.sin0, Z.mulZ]
  exact
  { subSelf := fun a => by rw [hsub]; exact ext2 (Z.subSelf _) (Z.subSelf _)
    addO := fun h => by rw [hadd]; exact ext2 (Z.addZ h.1) (Z.addZ h.2)
    Oadd := fun h => by rw [hadd]; exact ext2 (Z.zAdd h.1) (Z.zAdd h.2)
    subO := fun h => by rw [hsub]; exact ext2 (Z.subZ h.1) (Z.subZ h.2)
    jx := (jx _).trans (ext2 Z.negZ rfl)
    v8 := v8
    w8 := w8
    h1 := by show X.h1xpz (cZero F) = _; rw [e1]; exact hm.mulO _
    h3 := by show X.h3xpz (cZero F) = _; rw [e3]; exact hm.mulO _
    hf := by show X.hfxpz (cZero F) = _; rw [ef]; exact hm.mulO _
    hd := by show X.hdxpz (cZero F) = _; rw [ed]; exact hm.mulO _
    mulO := hm.mulO
    Omul := hm.Omul
    Imul := hm.Imul
    mulI := hm.mulI
    cnj := (cnj _).trans (ext2 rfl Z.negZ)
    exp0 := fun x => hexp _ (Z.mulZ _)
    exp00 := fun x y => hexp _ (by rw [Z.mulZ, Z.zMul])
    mix0 := fun n => by
      show (![fcos (fmul (fofNat 0) _), fneg (fsin (fmul (fofNat 0) _))] : Xmm F) = _
      rw [Z.zMul, Z.cos0, Z.sin0, Z.negZ]
      rfl
    zero := rfl
    repAdd := fun a b => by rw [hadd]; exact ⟨Z.repAdd _ _, Z.repAdd _ _⟩
    repO := ⟨Z.repZ, Z.repZ⟩
    repI := ⟨Z.repO, Z.repZ⟩ }

theorem flatLaws (Z : ZeroOne F Rep) (i : Target) :
    letI := i.arith F
    FlatLaws (F := F) (C := Xmm F) (cZero F) (cOne F) (fun a => Rep (a 0) ∧ Rep (a 1)) := by
  suffices key : ∀ X : XmmOps F, (X = if i.sse2 then (if i.sse3 then Sse3.ops i.fma else Sse2.ops) else NoSse.ops) →
      letI := X.arith (Equiv.refl _)
      FlatLaws (F := F) (C := Xmm F) (cZero F) (cOne F) (fun a => Rep (a 0) ∧ Rep (a 1)) from key _ rfl
  intro X hX
  split at hX
  · split at hX
    · subst hX; exact arith_flat Z (sse3_mul Z _) (fun _ _ => ext2 rfl rfl) (fun _ _ => ext2 rfl rfl) (fun _ => ext2 rfl rfl) (fun _ => ext2 rfl rfl)
        (ext2 (show fmul sqrt1_2 (fsub (fofNat 0) (fofNat 0)) = (fofNat 0 : F) by rw [Z.subSelf, Z.mulZ])
          (show fmul sqrt1_2 (fadd (fofNat 0) (fofNat 0)) = (fofNat 0 : F) by rw [Z.addZ Z.repZ, Z.mulZ]))
        (ext2 (show fmul sqrt1_2 (fadd (fofNat 0) (fofNat 0)) = (fofNat 0 : F) by rw [Z.addZ Z.repZ, Z.mulZ])
          (show fmul sqrt1_2 (fadd (fofNat 0) (fneg (fofNat 0))) = (fofNat 0 : F) by rw [Z.negZ, Z.addZ Z.repZ, Z.mulZ]))
        ⟨_, _, _, _, rfl, rfl, rfl, rfl⟩
    · subst hX; exact arith_flat Z (sse2_mul Z) (fun _ _ => ext2 rfl rfl) (fun _ _ => ext2 rfl rfl) (fun _ => ext2 rfl rfl) (fun _ => ext2 rfl rfl)
        (ext2 (show fmul sqrt1_2 (fadd (fofNat 0) (fneg (fofNat 0))) = (fofNat 0 : F) by rw [Z.negZ, Z.addZ Z.repZ, Z.mulZ])
          (show fmul sqrt1_2 (fadd (fofNat 0) (fofNat 0)) = (fofNat 0 : F) by rw [Z.addZ Z.repZ, Z.mulZ]))
        (ext2 (show fmul sqrt1_2 (fadd (fofNat 0) (fofNat 0)) = (fofNat 0 : F) by rw [Z.addZ Z.repZ, Z.mulZ])
          (show fmul sqrt1_2 (fadd (fofNat 0) (fneg (fofNat 0))) = (fofNat 0 : F) by rw [Z.negZ, Z.addZ Z.repZ, Z.mulZ]))
        ⟨_, _, _, _, rfl, rfl, rfl, rfl⟩
  · subst hX; exact arith_flat Z (noSse_mul Z) (fun _ _ => ext2 rfl rfl) (fun _ _ => ext2 rfl rfl) (fun _ => ext2 rfl rfl) (fun _ => ext2 rfl rfl)
      (ext2 (show fmul sqrt1_2 (fsub (fofNat 0) (fofNat 0)) = (fofNat 0 : F) by rw [Z.subSelf, Z.mulZ])
        (show fmul sqrt1_2 (fadd (fofNat 0) (fofNat 0)) = (fofNat 0 : F) by rw [Z.addZ Z.repZ, Z.mulZ]))
      (ext2 (show fmul sqrt1_2 (fadd (fofNat 0) (fofNat 0)) = (fofNat 0 : F) by rw [Z.addZ Z.repZ, Z.mulZ])
        (show fmul sqrt1_2 (fsub (fofNat 0) (fofNat 0)) = (fofNat 0 : F) by rw [Z.subSelf, Z.mulZ]))
      ⟨_, _, _, _, rfl, rfl, rfl, rfl⟩

/-! ### rounding -/

/-- a rounding that leaves 0, 1, its results and the doubles of its results alone -/
structure KeepsDoubles (ρ : ℝ → ℝ) : Prop where
  zero : ρ 0 = 0
  one : ρ 1 = 1
  idem : ∀ x, ρ (ρ x) = ρ x
  dbl : ∀ x, ρ x = x → ρ (x + x) = x + x

variable [Libm]

theorem rounded_zeroOne {ρ : ℝ → ℝ} (h : KeepsDoubles ρ) : ZeroOne (Rounded ρ) (fun a => ρ a.val = a.val) := by
  have e : ∀ {a b : Rounded ρ}, a.val = b.val → a = b := fun {a b} h => by cases a; cases b; exact congrArg _ h
  have z : (fofNat 0 : Rounded ρ).val = 0 := Nat.cast_zero
  have o : (fofNat 1 : Rounded ρ).val = 1 := Nat.cast_one
  constructor
  · rw [z]; exact h.zero
  · rw [o]; exact h.one
  · exact fun a b => h.idem _
  · intro a; refine e (show ρ (a.val - a.val) = _ from ?_); rw [sub_self, h.zero, z]
  · intro a ha; refine e (show ρ (a.val + (fofNat 0 : Rounded ρ).val) = _ from ?_); rw [z, add_zero, ha]
  · intro a ha; refine e (show ρ ((fofNat 0 : Rounded ρ).val + a.val) = _ from ?_); rw [z, zero_add, ha]
  · intro a ha; refine e (show ρ (a.val - (fofNat 0 : Rounded ρ).val) = _ from ?_); rw [z, sub_zero, ha]
  · refine e (show -(fofNat 0 : Rounded ρ).val = _ from ?_); rw [z, neg_zero]
  · intro a; refine e (show ρ (a.val * (fofNat 0 : Rounded ρ).val) = _ from ?_); rw [z, mul_zero, h.zero]
  · intro a; refine e (show ρ ((fofNat 0 : Rounded ρ).val * a.val) = _ from ?_); rw [z, zero_mul, h.zero]
  · intro a ha; refine e (show ρ (a.val * (fofNat 1 : Rounded ρ).val) = _ from ?_); rw [o, mul_one, ha]
  · intro a ha; refine e (show ρ ((fofNat 1 : Rounded ρ).val * a.val) = _ from ?_); rw [o, one_mul, ha]
  · intro a c hc; refine e (show ρ (a.val * (fofNat 0 : Rounded ρ).val + c.val) = _ from ?_); rw [z, mul_zero, zero_add, hc]
  · intro a c hc; refine e (show ρ ((fofNat 0 : Rounded ρ).val * a.val + c.val) = _ from ?_); rw [z, zero_mul, zero_add, hc]
  · intro a ha; refine e (show ρ (a.val * (fofNat 1 : Rounded ρ).val + (fofNat 0 : Rounded ρ).val) = _ from ?_); rw [z, o, mul_one, add_zero, ha]
  · intro a ha; refine e (show ρ ((fofNat 1 : Rounded ρ).val * a.val + (fofNat 0 : Rounded ρ).val) = _ from ?_); rw [z, o, one_mul, add_zero, ha]
  · intro a; refine e (show ρ (a.val * (fofNat 0 : Rounded ρ).val - (fofNat 0 : Rounded ρ).val) = _ from ?_); rw [z, mul_zero, sub_zero, h.zero]
  · intro a; refine e (show ρ ((fofNat 0 : Rounded ρ).val * a.val - (fofNat 0 : Rounded ρ).val) = _ from ?_); rw [z, zero_mul, sub_zero, h.zero]
  · intro a ha; refine e (show ρ (a.val * (fofNat 1 : Rounded ρ).val - (fofNat 0 : Rounded ρ).val) = _ from ?_); rw [z, o, mul_one, sub_zero, ha]
  · intro a ha; refine e (show ρ ((fofNat 1 : Rounded ρ).val * a.val - (fofNat 0 : Rounded ρ).val) = _ from ?_); rw [z, o, one_mul, sub_zero, ha]
  · refine e (show ρ (Libm.cos (fofNat 0 : Rounded ρ).val) = _ from ?_); rw [z, Libm.cos_zero, h.one, o]
  · refine e (show ρ (Libm.sin (fofNat 0 : Rounded ρ).val) = _ from ?_); rw [z, Libm.sin_zero, h.zero]

omit [Libm] in
theorem rnd53_keeps : KeepsDoubles rnd53 where
  zero := rnd53_zero
  one := rnd53_one
  idem := rnd53_idem
  dbl x hx := by
    have := rnd53_scale 1 x
    rw [hx] at this
    norm_num at this
    rwa [← two_mul]

omit [Libm] in
/-- an integer of at most 53 bits times a power of two that is not below the least positive double is not changed -/
theorem rnd64_repr {k e : ℤ} (hk : |k| ≤ 2 ^ 53) (he0 : -1074 ≤ e) : rnd64 (k * 2 ^ e) = k * 2 ^ e := by
  rcases eq_or_ne k 0 with rfl | h0
  · simp [rnd64_zero]
  set y : ℝ := k * 2 ^ e with hy
  have he : (0:ℝ) < 2 ^ e := by positivity
  have hy0 : 0 < |y| := abs_pos.2 (mul_ne_zero (by exact_mod_cast h0) he.ne')
  have hint : ∀ m : ℤ, y / 2 ^ lastPlace y = m → rnd64 y = y := fun m hm => by
    unfold rnd64
    rw [hm, rne_int, ← hm, div_mul_cancel₀ _ (by positivity)]
  by_cases hle : lastPlace y ≤ e
  · obtain ⟨j, hj⟩ := Int.eq_ofNat_of_zero_le (show 0 ≤ e - lastPlace y by omega)
    refine hint (k * 2 ^ j) ?_
    rw [hy]
    rw [mul_div_assoc, ← zpow_sub₀ (by norm_num : (2:ℝ) ≠ 0), ← hy, hj]
    push_cast
    rw [zpow_natCast]
  · have h1 : (2:ℝ) ^ Int.log 2 |y| ≤ |y| := by exact_mod_cast Int.zpow_log_le_self (b := 2) (by norm_num) hy0
    have h2 : |y| ≤ 2 ^ (e + 53) := by
      rw [hy, abs_mul, abs_of_pos he, zpow_add₀ (by norm_num), mul_comm]
      refine mul_le_mul_of_nonneg_left ?_ he.le
      rw [← Int.cast_abs]
      have : ((|k| : ℤ) : ℝ) ≤ ((2 ^ 53 : ℤ) : ℝ) := by exact_mod_cast hk
      rw [show ((2:ℝ) ^ (53:ℤ)) = ((2 ^ 53 : ℤ) : ℝ) by norm_num]
      exact this
    have h3 : Int.log 2 |y| ≤ e + 53 := (zpow_le_zpow_iff_right₀ (by norm_num : (1:ℝ) < 2)).1 (le_trans h1 h2)
    have hlp : lastPlace y = max (Int.log 2 |y| - 52) (-1074) := rfl
    have h4 : Int.log 2 |y| = e + 53 := by omega
    have h4' : lastPlace y = e + 1 := by omega
    rw [h4] at h1
    have h5 : |y| = 2 ^ (e + 53) := le_antisymm h2 h1
    rcases le_or_gt 0 y with hp | hn
    · refine hint (2 ^ 52) ?_
      rw [h4']
      rw [abs_of_nonneg hp] at h5
      rw [h5, ← zpow_sub₀ (by norm_num : (2:ℝ) ≠ 0), show e + 53 - (e + 1) = 52 by ring]
      norm_num
    · refine hint (-2 ^ 52) ?_
      have h6 : y = -2 ^ (e + 53) := by rw [abs_of_neg hn] at h5; linarith
      rw [h4']
      rw [h6, neg_div, ← zpow_sub₀ (by norm_num : (2:ℝ) ≠ 0), show e + 53 - (e + 1) = 52 by ring]
      norm_num

omit [Libm] in
/-- what rounding gives is of that form -/
theorem rnd64_form (x : ℝ) : ∃ k e : ℤ, |k| ≤ 2 ^ 53 ∧ -1074 ≤ e ∧ rnd64 x = k * 2 ^ e := by
  refine ⟨rne (x / 2 ^ lastPlace x), lastPlace x, ?_, le_max_right _ _, rfl⟩
  have h3 : |x / 2 ^ lastPlace x| < 2 ^ 53 := by
    rw [abs_div, abs_of_pos (by positivity : (0:ℝ) < 2 ^ lastPlace x), div_lt_iff₀ (by positivity)]
    have h2 : |x| < (2:ℝ) ^ (Int.log 2 |x| + 1) := by exact_mod_cast Int.lt_zpow_succ_log_self (b := 2) (by norm_num) |x|
    refine lt_of_lt_of_le h2 ?_
    rw [show ((2:ℝ) ^ 53) = 2 ^ (53:ℤ) by norm_num, ← zpow_add₀ (by norm_num)]
    refine zpow_le_zpow_right₀ (by norm_num) ?_
    have hlp : lastPlace x = max (Int.log 2 |x| - 52) (-1074) := rfl
    omega
  have h4 := abs_sub_rne (x / 2 ^ lastPlace x)
  generalize x / 2 ^ lastPlace x = z at h3 h4
  have h5 : |(rne z : ℝ)| < 2 ^ 53 + 1 := by
    calc |(rne z : ℝ)| = |z - (z - rne z)| := by ring_nf
      _ ≤ |z| + |z - rne z| := abs_sub _ _
      _ < 2 ^ 53 + 1 := by linarith
  have h6 : |rne z| < 2 ^ 53 + 1 := by exact_mod_cast h5
  omega

omit [Libm] in
/-- the rounding of IEEE 754 doubles, with subnormal numbers -/
theorem rnd64_keeps : KeepsDoubles rnd64 where
  zero := rnd64_zero
  one := by have := rnd64_repr (k := 1) (e := 0) (by norm_num) (by norm_num); simpa using this
  idem x := by
    obtain ⟨k, e, hk, he, h⟩ := rnd64_form x
    rw [h]
    exact rnd64_repr hk he
  dbl x hx := by
    obtain ⟨k, e, hk, he, h⟩ := rnd64_form x
    rw [hx] at h
    have : x + x = k * 2 ^ (e + 1) := by rw [zpow_add_one₀ (by norm_num), h]; ring
    rw [this]
    exact rnd64_repr hk (by omega)

/-! ### C67 -/

section
variable {ρ : ℝ → ℝ} {n : ℕ}

theorem dbl_val (h : KeepsDoubles ρ) (i : Target) {c : Xmm (Rounded ρ)} (hc : ρ (c 0).val = (c 0).val ∧ ρ (c 1).val = (c 1).val) (l : ℕ) :
    letI := i.arith (Rounded ρ)
    (FlatLaws.dbl (F := Rounded ρ) l c 0).val = 2 ^ l * (c 0).val ∧ (FlatLaws.dbl (F := Rounded ρ) l c 1).val = 2 ^ l * (c 1).val := by
  letI := i.arith (Rounded ρ)
  have L := flatLaws (rounded_zeroOne h) i
  have ha : ∀ a b : Xmm (Rounded ρ), (addpz a b : Xmm (Rounded ρ)) = ![fadd (a 0) (b 0), fadd (a 1) (b 1)] := by
    intro a b
    show (i.xmm (Rounded ρ)).addpz a b = _
    unfold Target.xmm
    split
    · split <;> exact ext2 rfl rfl
    · rfl
  induction l with
  | zero =>
    rw [pow_zero, one_mul, one_mul]
    exact ⟨rfl, rfl⟩
  | succ l ih =>
    have hr := L.dbl_rep hc l
    rw [FlatLaws.dbl_succ, ha]
    refine ⟨(h.dbl _ hr.1).trans ?_, (h.dbl _ hr.2).trans ?_⟩
    · rw [ih.1, pow_succ]; ring
    · rw [ih.2, pow_succ]; ring

/-- C67: an impulse, `c` in element 0 and zero elsewhere, is transformed into the constant `c`, exactly: by the forward transform
for every length, by the inverse one for powers of two up to `2^24`. -/
theorem C67_impulse (hρ : KeepsDoubles ρ) (i : Target) (thr : Thr) (hn : ValidLen n)
    {w : World (Xmm (Rounded ρ))} {x : Ptr} {v : ℕ → Xmm (Rounded ρ)} (hx : UserArray w x n v) (c : Xmm (Rounded ρ))
    (hc : ρ (c 0).val = (c 0).val ∧ ρ (c 1).val = (c 1).val) (h0 : v 0 = c)
    (h : ∀ t < n, t ≠ 0 → (v t 0).val = 0 ∧ (v t 1).val = 0) (e : Entry)
    (he : e = .fwd0 ∨ (e = .inv ∨ e = .inv0) ∧ ∃ k ≤ 24, n = 2 ^ k) :
    letI := i.arith (Rounded ρ)
    ∃ out : ℕ → Xmm (Rounded ρ), Computes (complexFFT (Xmm (Rounded ρ)) thr) n [(e, x)] w x n out ∧ ∀ t < n, out t = c := by
  letI := i.arith (Rounded ρ)
  have L := flatLaws (rounded_zeroOne hρ) i
  refine ⟨_, ⟨FFT.calls (es := [e]) hn hx, FFT.lifetime_noFail _ (by have := hn.two; omega) _ (lenNat_calls _)⟩, ?_⟩
  intro t ht
  show fftOut (Xmm (Rounded ρ)) thr e.isInv e.mode n v t = c
  have hm : e.mode = .scale_1 ∧ (e.isInv = true → ∃ k ≤ 24, n = 2 ^ k) := by
    rcases he with rfl | ⟨rfl | rfl, h⟩
    · exact ⟨rfl, fun h => by cases h⟩
    · exact ⟨rfl, fun _ => h⟩
    · exact ⟨rfl, fun _ => h⟩
  rw [hm.1]
  refine L.fft_imp hn.two hm.2 hc (fun t ht => ?_) t ht
  by_cases h1 : t < 1
  · rw [if_pos h1, show t = 0 by omega, h0]
  · rw [if_neg h1]
    obtain ⟨a, b⟩ := h t ht (by omega)
    have e0 : ∀ z : Rounded ρ, z.val = 0 → z = fofNat 0 := fun z hz => by
      cases z
      subst hz
      exact congrArg Rounded.mk Nat.cast_zero.symm
    exact ext2 (e0 _ a) (e0 _ b)

/-- C67: for a power of two `n = 2^k`, `k ≤ 24`, the constant `c` is transformed into `n c` in element 0 and zero
elsewhere, exactly. -/
theorem C67_constant (hρ : KeepsDoubles ρ) (i : Target) (thr : Thr) {k : ℕ} (hn : n = 2 ^ k) (h1 : 1 ≤ k) (hk : k ≤ 24)
    {w : World (Xmm (Rounded ρ))} {x : Ptr} {v : ℕ → Xmm (Rounded ρ)} (hx : UserArray w x n v) (c : Xmm (Rounded ρ))
    (hc : ρ (c 0).val = (c 0).val ∧ ρ (c 1).val = (c 1).val) (h : ∀ t < n, v t = c) (e : Entry)
    (he : e = .fwd0 ∨ e = .inv ∨ e = .inv0) :
    letI := i.arith (Rounded ρ)
    ∃ out : ℕ → Xmm (Rounded ρ), Computes (complexFFT (Xmm (Rounded ρ)) thr) n [(e, x)] w x n out ∧
      ((out 0 0).val = n * (c 0).val ∧ (out 0 1).val = n * (c 1).val) ∧
      ∀ t < n, t ≠ 0 → (out t 0).val = 0 ∧ (out t 1).val = 0 := by
  letI := i.arith (Rounded ρ)
  have L := flatLaws (rounded_zeroOne hρ) i
  have hv := hn ▸ validLen_pow k h1 (by omega)
  refine ⟨_, ⟨FFT.calls (es := [e]) hv hx, FFT.lifetime_noFail _ (by have := hv.two; omega) _ (lenNat_calls _)⟩, ?_⟩
  have hm : e.mode = .scale_1 := by rcases he with rfl | rfl | rfl <;> rfl
  have key : ∀ t < n, fftOut (Xmm (Rounded ρ)) thr e.isInv e.mode n v t = if t < 1 then FlatLaws.dbl (F := Rounded ρ) k c else cZero (Rounded ρ) := by
    rw [hm]
    exact L.fft_con h1 hk hn hc h
  constructor
  · show (fftOut (Xmm (Rounded ρ)) thr e.isInv e.mode n v 0 0).val = _ ∧ (fftOut (Xmm (Rounded ρ)) thr e.isInv e.mode n v 0 1).val = _
    rw [key 0 (by have := hv.two; omega), if_pos (by omega), hn]
    push_cast
    exact dbl_val hρ i hc k
  · intro t ht h0
    show (fftOut (Xmm (Rounded ρ)) thr e.isInv e.mode n v t 0).val = _ ∧ (fftOut (Xmm (Rounded ρ)) thr e.isInv e.mode n v t 1).val = _
    rw [key t ht, if_neg (by omega)]
    exact ⟨Nat.cast_zero, Nat.cast_zero⟩

/-- C67: normalised, the constant `c` gives exactly `c` in element 0 and zero elsewhere. -/
theorem C67_mean (hρ : KeepsDoubles ρ) (hs : ScalesBy ρ n) (i : Target) (thr : Thr) {k : ℕ} (hn : n = 2 ^ k) (h1 : 1 ≤ k) (hk : k ≤ 24)
    {w : World (Xmm (Rounded ρ))} {x : Ptr} {v : ℕ → Xmm (Rounded ρ)} (hx : UserArray w x n v) (c : Xmm (Rounded ρ))
    (hc : ρ (c 0).val = (c 0).val ∧ ρ (c 1).val = (c 1).val) (h : ∀ t < n, v t = c) (e : Entry)
    (he : e = .fwd ∨ e = .fwdn ∨ e = .invn) :
    letI := i.arith (Rounded ρ)
    ∃ out : ℕ → Xmm (Rounded ρ), Computes (complexFFT (Xmm (Rounded ρ)) thr) n [(e, x)] w x n out ∧
      ((out 0 0).val = (c 0).val ∧ (out 0 1).val = (c 1).val) ∧
      ∀ t < n, t ≠ 0 → (out t 0).val = 0 ∧ (out t 1).val = 0 := by
  letI := i.arith (Rounded ρ)
  have L := flatLaws (rounded_zeroOne hρ) i
  have hv := hn ▸ validLen_pow k h1 (by omega)
  refine ⟨_, ⟨FFT.calls (es := [e]) hv hx, FFT.lifetime_noFail _ (by have := hv.two; omega) _ (lenNat_calls _)⟩, ?_⟩
  have hm : e.mode = .scale_length := by rcases he with rfl | rfl | rfl <;> rfl
  have key : ∀ t < n, fftOut (Xmm (Rounded ρ)) thr e.isInv .scale_1 n v t = if t < 1 then FlatLaws.dbl (F := Rounded ρ) k c else cZero (Rounded ρ) :=
    L.fft_con h1 hk hn hc h
  have hdiv := fun t (ht : t < n) => fftOut_div hs i thr hn h1 (v := v) (fun t ht => by rw [h t ht]; exact hc) e.isInv ht
  have hn0 : ((2:ℝ) ^ k) ≠ 0 := by positivity
  have h2 := hv.two
  constructor
  · show (fftOut (Xmm (Rounded ρ)) thr e.isInv e.mode n v 0 0).val = _ ∧ (fftOut (Xmm (Rounded ρ)) thr e.isInv e.mode n v 0 1).val = _
    have hd := hdiv 0 (by omega)
    rw [key 0 (by omega), if_pos (by omega)] at hd
    rw [hm, hd.1, hd.2, (dbl_val hρ i hc k).1, (dbl_val hρ i hc k).2, hn]
    push_cast
    constructor <;> field_simp
  · intro t ht h0
    show (fftOut (Xmm (Rounded ρ)) thr e.isInv e.mode n v t 0).val = _ ∧ (fftOut (Xmm (Rounded ρ)) thr e.isInv e.mode n v t 1).val = _
    have hd := hdiv t ht
    rw [key t ht, if_neg (by omega)] at hd
    rw [hm, hd.1, hd.2]
    have z : ∀ j, (cZero (Rounded ρ) j).val = 0 := fun j => by
      fin_cases j <;> exact Nat.cast_zero
    rw [z, z]
    simp

end

/-! ### Examples -/

/-- an impulse of length 30 = 2·3·5 -/
example (thr : Thr) : letI := sse2Build.arith (Rounded rnd64)
    ∃ out : ℕ → Xmm (Rounded rnd64), Computes (complexFFT (Xmm (Rounded rnd64)) thr) 30 [(.fwd0, Ptr.base 1)]
      (oneArray 30 fun t => if t = 0 then ![⟨3⟩, ⟨-1⟩] else ![⟨0⟩, ⟨0⟩]) (Ptr.base 1) 30 out ∧ ∀ t < 30, out t = ![⟨3⟩, ⟨-1⟩] := by
  refine C67_impulse rnd64_keeps sse2Build thr (validLen_of_le (by omega) (by omega)) (oneArray_ok _ _) _ ⟨?_, ?_⟩ rfl (fun t _ h0 => ?_) _ (.inl rfl)
  · have := rnd64_repr (k := 3) (e := 0) (by norm_num) (by norm_num)
    simpa using this
  · have := rnd64_repr (k := -1) (e := 0) (by norm_num) (by norm_num)
    simpa using this
  · simp [h0]

/-- a constant of length 2^16 -/
example (thr : Thr) : letI := avxBuild.arith (Rounded rnd53)
    ∃ out : ℕ → Xmm (Rounded rnd53), Computes (complexFFT (Xmm (Rounded rnd53)) thr) (2 ^ 16) [(.fwd, Ptr.base 1)]
      (oneArray (2 ^ 16) fun _ => ![⟨1⟩, ⟨0⟩]) (Ptr.base 1) (2 ^ 16) out ∧
      ((out 0 0).val = 1 ∧ (out 0 1).val = 0) ∧ ∀ t < 2 ^ 16, t ≠ 0 → (out t 0).val = 0 ∧ (out t 1).val = 0 :=
  C67_mean rnd53_keeps (rnd53_scalesBy 16) avxBuild thr rfl (by norm_num) (by norm_num) (oneArray_ok _ _) ![⟨1⟩, ⟨0⟩] ⟨rnd53_one, rnd53_zero⟩
    (fun _ _ => rfl) _ (.inl rfl)

end OTFFT.Props
