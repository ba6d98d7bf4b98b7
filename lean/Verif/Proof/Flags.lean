/-
IEEE 754 arithmetic with exception flags: as long as no flag is raised, it is rounding to 53 bits.
-/
import Verif.Spec.Flags
import Verif.Proof.ParTarget
import Verif.Proof.Newton
import Verif.Props.Normal

namespace OTFFT

open Props (rnd53_repr rnd53_neg rnd53_err)

/-! ### rounding -/

/-- a number that is rounded to `2^-1022` or more by one of the roundings -/
theorem rnd64_corner {x : ℝ} (h0 : 0 < x) (h1 : x < 2 ^ (-1022:ℤ)) (h : (2:ℝ) ^ (-1022:ℤ) ≤ rnd53 x) : rnd64 x = rnd53 x := by
  have hp : (0:ℝ) < 2 ^ (-1022:ℤ) := by positivity
  have e52 : (2:ℝ) ^ (-1074:ℤ) = 2 ^ (-1022:ℤ) / 2 ^ 52 := by
    rw [show (-1074:ℤ) = -1022 - 52 by norm_num, zpow_sub₀ (by norm_num)]; norm_num
  have e53 : (2:ℝ) ^ (-1075:ℤ) = 2 ^ (-1022:ℤ) / 2 ^ 53 := by
    rw [show (-1075:ℤ) = -1022 - 53 by norm_num, zpow_sub₀ (by norm_num)]; norm_num
  have e1 : (2:ℝ) ^ (-1023:ℤ) = 2 ^ (-1022:ℤ) / 2 := by
    rw [show (-1023:ℤ) = -1022 - 1 by norm_num, zpow_sub₀ (by norm_num)]; norm_num
  have hx : (1 - 1 / 2 ^ 53) * 2 ^ (-1022:ℤ) < x := by
    have := rnd53_err x
    rw [abs_of_pos h0] at this
    have h2 : rnd53 x ≤ (1 + 1 / 2 ^ 53) * x := by
      have := (abs_le.1 this).2
      linarith
    generalize (2:ℝ) ^ (-1022:ℤ) = G at *
    have : G ≤ (1 + 1 / 2 ^ 53) * x := le_trans h h2
    norm_num at this ⊢
    nlinarith
  have hlog : Int.log 2 |x| = -1023 := by
    have e2 : |x| < (2:ℝ) ^ (-1022:ℤ) := by rw [abs_of_pos h0]; exact h1
    apply le_antisymm
    · have := (Int.lt_zpow_iff_log_lt (b := 2) (by norm_num) (abs_pos.2 h0.ne') (x := -1022)).1 (by exact_mod_cast e2)
      omega
    · apply log_ge_of
      rw [abs_of_pos h0, e1]
      refine le_trans ?_ hx.le
      generalize (2:ℝ) ^ (-1022:ℤ) = G at *
      norm_num
      linarith
  have a1 : rnd64 x = 2 ^ (-1022:ℤ) := by
    have hl : lastPlace x = -1074 := by unfold lastPlace; rw [hlog]; norm_num
    unfold rnd64
    rw [hl, rne_near (m := 2 ^ 52) ?_]
    · rw [e52]; push_cast; field_simp; norm_num
    · rw [e52]
      generalize (2:ℝ) ^ (-1022:ℤ) = G at *
      have : x / (G / 2 ^ 52) - ((2 ^ 52 : ℤ) : ℝ) = (x - G) * 2 ^ 52 / G := by push_cast; field_simp; norm_num; ring
      rw [this, abs_lt]
      constructor
      · rw [lt_div_iff₀ hp]
        norm_num at hx ⊢
        linarith
      · rw [div_lt_iff₀ hp]
        norm_num
        nlinarith
  have a2 : rnd53 x ≤ 2 ^ (-1022:ℤ) := by
    unfold rnd53
    rw [hlog, show (-1023:ℤ) - 52 = -1075 by norm_num]
    have hr : rne (x / 2 ^ (-1075:ℤ)) ≤ 2 ^ 53 := by
      have h3 := abs_sub_rne (x / 2 ^ (-1075:ℤ))
      have h4 : x / 2 ^ (-1075:ℤ) < 2 ^ 53 := by
        rw [e53, div_lt_iff₀ (by positivity)]
        generalize (2:ℝ) ^ (-1022:ℤ) = G at *
        field_simp
        linarith
      have h5 : (rne (x / 2 ^ (-1075:ℤ)) : ℝ) < 2 ^ 53 + 1 := by
        have := (abs_le.1 h3).1
        linarith
      have h6 : rne (x / 2 ^ (-1075:ℤ)) < 2 ^ 53 + 1 := by exact_mod_cast h5
      omega
    have hr' : (rne (x / 2 ^ (-1075:ℤ)) : ℝ) ≤ 2 ^ 53 := by exact_mod_cast hr
    refine le_trans (mul_le_mul_of_nonneg_right hr' (by positivity)) (le_of_eq ?_)
    rw [e53]
    field_simp
  rw [a1]
  exact le_antisymm h a2

/-- without underflow, rounding to a double is rounding to 53 bits -/
theorem rnd64_quiet {x : ℝ} (h : ¬ (|rnd53 x| < 1 / 2 ^ 1022 ∧ rnd64 x ≠ x)) : rnd64 x = rnd53 x := by
  have e : (1:ℝ) / 2 ^ 1022 = 2 ^ (-1022:ℤ) := by rw [zpow_neg, one_div]; norm_cast
  rw [e] at h
  rcases eq_or_ne x 0 with rfl | h0
  · rw [rnd64_zero, rnd53_zero]
  by_cases hl : -1022 ≤ Int.log 2 |x|
  · unfold rnd64 rnd53 lastPlace
    rw [max_eq_left (by omega)]
  have hp : lastPlace x = -1074 := by unfold lastPlace; omega
  have hlt : |x| < (2:ℝ) ^ (-1022:ℤ) := by
    have := (Int.lt_zpow_iff_log_lt (b := 2) (by norm_num) (abs_pos.2 h0) (x := -1022)).2 (by omega)
    exact_mod_cast this
  by_cases hd : rnd64 x = x
  · have hx : x = (rne (x / 2 ^ (-1074:ℤ)) : ℝ) * 2 ^ (-1074:ℤ) := by
      conv_lhs => rw [← hd]
      unfold rnd64
      rw [hp]
    rw [hd]
    generalize rne (x / 2 ^ (-1074:ℤ)) = m at hx
    have hm : |m| ≤ 2 ^ 53 := by
      have hG : (0:ℝ) < 2 ^ (-1074:ℤ) := by positivity
      rw [hx, abs_mul, abs_of_pos hG] at hlt
      have e52 : (2:ℝ) ^ (-1022:ℤ) = 2 ^ 52 * 2 ^ (-1074:ℤ) := by
        rw [show (-1022:ℤ) = 52 + -1074 by norm_num, zpow_add₀ (by norm_num)]; norm_num
      rw [e52] at hlt
      have := lt_of_mul_lt_mul_right hlt hG.le
      have h2 : |m| < 2 ^ 52 := by exact_mod_cast this
      have : (2:ℤ) ^ 52 ≤ 2 ^ 53 := by norm_num
      omega
    rw [hx, rnd53_repr hm]
  · have hge : (2:ℝ) ^ (-1022:ℤ) ≤ |rnd53 x| := by
      by_contra hc
      exact h ⟨not_le.1 hc, hd⟩
    have hs : 0 ≤ x * rnd53 x := by
      have := rnd53_err x
      have h1 : 1 / 2 ^ 53 * |x| ≤ |x| := mul_le_of_le_one_left (abs_nonneg x) (by norm_num)
      have h2 := abs_le.1 (le_trans this h1)
      rcases lt_or_gt_of_ne h0 with hx | hx
      · rw [abs_of_neg hx] at h2
        nlinarith
      · rw [abs_of_pos hx] at h2
        nlinarith
    rcases lt_or_gt_of_ne h0 with hx | hx
    · have h3 : rnd53 x ≤ 0 := by
        by_contra hc
        have := mul_neg_of_neg_of_pos hx (not_le.1 hc)
        linarith
      rw [abs_of_nonpos h3, ← rnd53_neg] at hge
      rw [abs_of_neg hx] at hlt
      have := rnd64_corner (x := -x) (by linarith) hlt hge
      rw [rnd64_neg, rnd53_neg] at this
      linarith
    · have h3 : 0 ≤ rnd53 x := by
        by_contra hc
        have := mul_neg_of_pos_of_neg hx (not_le.1 hc)
        linarith
      rw [abs_of_nonneg h3] at hge
      rw [abs_of_pos hx] at hlt
      exact rnd64_corner hx hlt hge

/-- an operation that raises no flag delivers the exact result rounded to 53 bits -/
theorem rnd_quiet {x : ℝ} {z : Bool} (h : ¬ raises x ⟨Dbl.rnd rnd64 maxDbl x z⟩) :
    ∃ z', Dbl.rnd rnd64 maxDbl x z = .num (rnd53 x) z' := by
  unfold raises at h
  rw [not_or] at h
  have e := rnd64_quiet h.2
  unfold Dbl.rnd at *
  by_cases hm : maxDbl < |rnd64 x|
  · rw [if_pos hm] at h
    exact absurd (fun _ _ h => by cases h) h.1
  · rw [if_neg hm, e]
    exact ⟨_, rfl⟩

/-! ### the square roots -/

/-- numbers of an arithmetic that is rounding to 53 bits for positive numbers of moderate size -/
structure Moderate (F : Type) [DArith F] (num : ℝ → F) : Prop where
  inj : ∀ {x y}, num x = num y → x = y
  nat : ∀ {N : ℕ}, 1 ≤ N → N < 2 ^ 53 → fofNat N = num N
  div : ∀ {x y : ℝ}, 1 / 2 ^ 1000 ≤ x / y → x / y ≤ 2 ^ 1000 → fdiv (num x) (num y) = num (rnd53 (x / y))
  add : ∀ {x y : ℝ}, 1 / 2 ^ 1000 ≤ x + y → x + y ≤ 2 ^ 1000 → fadd (num x) (num y) = num (rnd53 (x + y))

namespace Moderate
variable {F : Type} [DArith F] {num : ℝ → F}

theorem step (M : Moderate F num) {N X Z : ℕ} (h1N : 1 ≤ N) (hN : N < 2 ^ 53) (h : newtonStep N X = some Z) :
    fdiv (fadd (num (X / 2 ^ 60)) (fdiv (fofNat N) (num (X / 2 ^ 60)))) (fofNat 2) = num (Z / 2 ^ 60) := by
  unfold newtonStep at h
  simp only at h
  split at h
  · rename_i hc
    obtain ⟨⟨h1, h1'⟩, ⟨h2, h2'⟩, h3, h3'⟩ := hc
    injection h with h
    have hX : 0 < X := by
      rcases Nat.eq_zero_or_pos X with rfl | h'
      · simp at h1
      · exact h'
    have hX' : (0:ℝ) < X := by exact_mod_cast hX
    have e1 : fdiv (fofNat N) (num (X / 2 ^ 60)) = num ((rndNat (N * 2 ^ 120) X : ℕ) / 2 ^ 60) := by
      have ee : ((N * 2 ^ 120 : ℕ) : ℝ) / X / 2 ^ 60 = (N:ℝ) / (X / 2 ^ 60) := by
        rw [Nat.cast_mul, show ((2 ^ 120 : ℕ) : ℝ) = 2 ^ 60 * 2 ^ 60 by norm_num]
        field_simp
      have hb := normal_nat h1 h1'
      have := rnd53_fx h1
      rw [ee] at hb this
      rw [M.nat h1N hN, M.div hb.1 hb.2, this]
    have e2 : fadd (num (X / 2 ^ 60)) (num ((rndNat (N * 2 ^ 120) X : ℕ) / 2 ^ 60)) =
        num ((rndNat (X + rndNat (N * 2 ^ 120) X) 1 : ℕ) / 2 ^ 60) := by
      have ee : ((X + rndNat (N * 2 ^ 120) X : ℕ) : ℝ) / (1:ℕ) / 2 ^ 60 = (X:ℝ) / 2 ^ 60 + (rndNat (N * 2 ^ 120) X : ℝ) / 2 ^ 60 := by
        push_cast
        ring
      have hb := normal_nat h2 h2'
      have := rnd53_fx h2
      rw [ee] at hb this
      rw [M.add hb.1 hb.2, this]
    rw [e1, e2]
    have ee : ((rndNat (X + rndNat (N * 2 ^ 120) X) 1 : ℕ) : ℝ) / (2:ℕ) / 2 ^ 60 =
        (rndNat (X + rndNat (N * 2 ^ 120) X) 1 : ℝ) / 2 ^ 60 / ((2:ℕ):ℝ) := by ring
    have hb := normal_nat h3 h3'
    have := rnd53_fx h3
    rw [ee] at hb this
    rw [M.nat (by norm_num) (by norm_num), M.div hb.1 hb.2, this, h]
  · cases h

theorem run (M : Moderate F num) {N R : ℕ} (h1 : 1 ≤ N) (hN : N < 2 ^ 53) : ∀ {fuel X Y : ℕ}, newtonRun N fuel X Y = some R →
    SqrtAux (fofNat N) (num (X / 2 ^ 60)) (num (Y / 2 ^ 60)) (num (R / 2 ^ 60))
  | 0, _, _, h => by cases h
  | fuel + 1, X, Y, h => by
    unfold newtonRun at h
    split at h
    · rename_i e
      injection h with h
      subst e h
      exact .stop _
    · rename_i e
      rw [Option.bind_eq_some_iff] at h
      obtain ⟨Z, hZ, h⟩ := h
      refine .step (fun h' => e ?_) ?_
      · have := M.inj h'
        rw [div_left_inj' (by positivity)] at this
        exact_mod_cast this
      · rw [M.step h1 hN hZ]
        exact M.run h1 hN h

theorem mysqrt (M : Moderate F num) {k : ℕ} (hk : k < 31) : OTFFT.mysqrt (fofNat (2 ^ k) : F) = num (sqrtNat k / 2 ^ 60) := by
  have h1 : 1 ≤ 2 ^ k := Nat.one_le_two_pow
  have h2 : 2 ^ k < 2 ^ 53 := Nat.pow_lt_pow_right (by norm_num) (by omega)
  have h := M.run h1 h2 (newton_runs k hk)
  apply IsMySqrt.mysqrt_eq
  unfold IsMySqrt
  have e1 : (fofNat (2 ^ k) : F) = num ((2 ^ k * 2 ^ 60 : ℕ) / 2 ^ 60) := by
    rw [M.nat h1 h2]
    congr 1
    push_cast
    field_simp
    norm_num
  have e2 : fdiv (fofNat (2 ^ k)) (fofNat 2) = num ((2 ^ k * 2 ^ 59 : ℕ) / 2 ^ 60) := by
    have e : (((2 ^ k : ℕ) : ℝ) / ((2 : ℕ) : ℝ)) = 2 ^ ((k:ℤ) - 1) := by
      push_cast
      rw [zpow_sub₀ (by norm_num), zpow_natCast, zpow_one]
    have b1 : (1:ℝ) / 2 ^ 1000 ≤ ((2 ^ k : ℕ) : ℝ) / ((2 : ℕ) : ℝ) := by
      rw [e, one_div, ← zpow_natCast, ← zpow_neg]
      exact zpow_le_zpow_right₀ (by norm_num) (by push_cast; omega)
    have b2 : ((2 ^ k : ℕ) : ℝ) / ((2 : ℕ) : ℝ) ≤ 2 ^ 1000 := by
      rw [e, ← zpow_natCast]
      exact zpow_le_zpow_right₀ (by norm_num) (by push_cast; omega)
    rw [M.nat h1 h2, M.nat (by norm_num) (by norm_num), M.div b1 b2]
    congr 1
    rw [e, rnd53_pow, ← e]
    push_cast
    rw [show (2:ℝ) ^ 60 = 2 ^ 59 * 2 by norm_num]
    field_simp
    norm_num
  rw [e2]
  nth_rw 2 [e1]
  exact h

end Moderate

variable [Libm]

theorem moderate_dbl : Moderate Dbl64 fun x => ⟨.num x false⟩ where
  inj h := congrArg Ieee.val h
  nat := fofNat_normal
  div := div_normal
  add := add_normal

theorem moderate_rounded : Moderate (Rounded rnd53) fun x => ⟨x⟩ where
  inj h := congrArg Rounded.val h
  nat _ _ := rfl
  div _ _ := rfl
  add _ _ := rfl

omit [Libm] in
theorem not_raises {x y : ℝ} (h1 : 1 / 2 ^ 1000 ≤ x) : ¬ raises x ⟨.num y false⟩ := by
  have h0 : 0 < x := lt_of_lt_of_le (by positivity) h1
  rintro (h | ⟨h, -⟩)
  · exact h _ _ rfl
  · have := rnd53_err x
    rw [abs_of_pos h0] at this
    have h2 : x / 2 ≤ rnd53 x := by
      have := (abs_le.1 this).1
      norm_num at this
      linarith
    have h3 := lt_of_le_of_lt (le_trans h2 (le_abs_self _)) h
    have h4 : (1:ℝ) / 2 ^ 1022 ≤ 1 / 2 ^ 1000 / 2 := by
      rw [div_div, div_le_div_iff₀ (by positivity) (by positivity), one_mul, one_mul, ← pow_succ]
      exact pow_le_pow_right₀ (by norm_num) (by norm_num)
    linarith

theorem moderate_flagged : Moderate Flagged fun x => ⟨⟨.num x false⟩, False⟩ where
  inj h := congrArg (fun a : Flagged => a.d.val) h
  nat {N} h1 h2 := by
    show (⟨fofNat N, 2 ^ 53 ≤ N⟩ : Flagged) = _
    rw [fofNat_normal h1 h2, eq_false (not_le.2 h2)]
  div {x y} h1 h2 := by
    show (⟨fdiv (⟨.num x false⟩ : Dbl64) ⟨.num y false⟩, False ∨ False ∨ raises (x / y) (fdiv (⟨.num x false⟩ : Dbl64) ⟨.num y false⟩)⟩ : Flagged) = _
    rw [div_normal h1 h2, eq_false (not_raises h1), or_false, or_false]
  add {x y} h1 h2 := by
    show (⟨fadd (⟨.num x false⟩ : Dbl64) ⟨.num y false⟩, False ∨ False ∨ raises (x + y) (fadd (⟨.num x false⟩ : Dbl64) ⟨.num y false⟩)⟩ : Flagged) = _
    rw [add_normal h1 h2, eq_false (not_raises h1), or_false, or_false]

/-! ### the two relations -/

/-- the double without the flags -/
theorem linked_dbl : Linked fun (a : Flagged) (b : Dbl64) => a.d = b where
  nat _ := rfl
  pi := rfl
  sqrt1_2 := rfl
  h1x := rfl
  h1y := rfl
  neg h := by subst h; rfl
  add h h' := by subst h h'; rfl
  sub h h' := by subst h h'; rfl
  mul h h' := by subst h h'; rfl
  div h h' := by subst h h'; rfl
  fma h h' h'' := by subst h h' h''; rfl
  fms h h' h'' := by subst h h' h''; rfl
  sqrt h := by subst h; rfl
  cos h := by subst h; rfl
  sin h := by subst h; rfl
  mysqrt k hk := by rw [moderate_flagged.mysqrt hk, moderate_dbl.mysqrt hk]

omit [Libm] in
/-- the result of an operation -/
theorem Quiet.res {d : Dbl64} {q : Prop} {x : ℝ} (h : ¬ q → ¬ raises x d ∧ ∃ z, d.d = Dbl.rnd rnd64 maxDbl x z) : Quiet ⟨d, q⟩ ⟨rnd53 x⟩ := by
  by_cases hq : q
  · exact .inl hq
  · obtain ⟨h1, z, h2⟩ := h hq
    right
    obtain ⟨z', e⟩ := rnd_quiet (x := x) (z := z) (by
      rw [show (⟨Dbl.rnd rnd64 maxDbl x z⟩ : Dbl64) = d by rw [← h2]]
      exact h1)
    exact ⟨z', by rw [h2, e]⟩

omit [Libm] in
theorem Quiet.num {a : Flagged} {x : Rounded rnd53} (h : Quiet a x) (hr : ¬ a.raised) : ∃ z, a.d = ⟨.num x.val z⟩ := by
  obtain ⟨z, e⟩ := h.resolve_left hr
  exact ⟨z, by rw [← e]⟩

omit [Libm] in
theorem lit_quiet {x : ℝ} (h1 : 1 / 2 ^ 1000 ≤ x) (h2 : x ≤ 2 ^ 1000) : Quiet ⟨⟨Dbl.rnd rnd64 maxDbl x false⟩, False⟩ ⟨rnd53 x⟩ :=
  .inr ⟨false, rnd_normal h1 h2 false⟩

omit [Libm] in
theorem tiny_le {x : ℝ} (h : 1 / 8 ≤ x) : 1 / 2 ^ 1000 ≤ x := by
  refine le_trans ?_ h
  rw [div_le_div_iff₀ (by positivity) (by norm_num), one_mul, one_mul]
  calc (8:ℝ) = 2 ^ 3 := by norm_num
    _ ≤ 2 ^ 1000 := pow_le_pow_right₀ (by norm_num) (by norm_num)

omit [Libm] in
theorem le_huge {x : ℝ} (h : x ≤ 8) : x ≤ 2 ^ 1000 :=
  le_trans h (by
    calc (8:ℝ) = 2 ^ 3 := by norm_num
      _ ≤ 2 ^ 1000 := pow_le_pow_right₀ (by norm_num) (by norm_num))

theorem linked_quiet : Linked Quiet where
  nat n := by
    show Quiet ⟨fofNat n, 2 ^ 53 ≤ n⟩ ⟨n⟩
    by_cases h : 2 ^ 53 ≤ n
    · exact .inl h
    · right
      rcases Nat.eq_zero_or_pos n with rfl | h1
      · refine ⟨false, ?_⟩
        show Dbl.rnd rnd64 maxDbl ((0:ℕ):ℝ) false = _
        unfold Dbl.rnd
        rw [Nat.cast_zero, rnd64_zero, abs_zero, if_neg (not_lt.2 (by unfold maxDbl; norm_num)), if_pos rfl]
      · exact ⟨false, by rw [fofNat_normal h1 (not_le.1 h)]⟩
  pi := lit_quiet (tiny_le (by linarith [Real.pi_gt_three])) (le_huge (by linarith [Real.pi_lt_four]))
  sqrt1_2 := lit_quiet (tiny_le (by unfold litSqrt1_2; norm_num)) (le_huge (by unfold litSqrt1_2; norm_num))
  h1x := lit_quiet (tiny_le (by unfold litH1X; norm_num)) (le_huge (by unfold litH1X; norm_num))
  h1y := by
    have h := rnd_normal (x := -(litH1Y : ℝ)) (tiny_le (by unfold litH1Y; norm_num)) (le_huge (by unfold litH1Y; norm_num)) false
    have hm : ¬ maxDbl < |rnd64 (litH1Y : ℝ)| := by
      intro hc
      unfold Dbl.rnd at h
      rw [rnd64_neg, abs_neg, if_pos hc] at h
      cases h
    have e := rnd64_eq (x := -(litH1Y : ℝ)) (tiny_le (by unfold litH1Y; norm_num))
    rw [rnd64_neg, rnd53_neg, neg_inj] at e
    have h2 : ∃ z, Dbl.rnd rnd64 maxDbl (litH1Y : ℝ) false = .num (rnd53 (litH1Y : ℝ)) z := by
      unfold Dbl.rnd
      rw [if_neg hm, e]
      exact ⟨_, rfl⟩
    exact .inr h2
  neg {a x} h := by
    rcases h with h | ⟨z, h⟩
    · exact .inl h
    · refine .inr ⟨!z, ?_⟩
      show a.d.d.neg = _
      rw [h]; rfl
  add {a x b y} h h' := by
    refine Quiet.res fun hq => ?_
    rw [not_or, not_or] at hq
    obtain ⟨ha, hb, hr⟩ := hq
    obtain ⟨z, e⟩ := h.num ha
    obtain ⟨z', e'⟩ := h'.num hb
    rw [e, e'] at hr ⊢
    exact ⟨hr, _, rfl⟩
  sub {a x b y} h h' := by
    refine Quiet.res fun hq => ?_
    rw [not_or, not_or] at hq
    obtain ⟨ha, hb, hr⟩ := hq
    obtain ⟨z, e⟩ := h.num ha
    obtain ⟨z', e'⟩ := h'.num hb
    rw [e, e'] at hr ⊢
    exact ⟨hr, Dbl.zsum (.num x.val z) (.num (-y.val) !z'), by rw [sub_eq_add_neg]; rfl⟩
  mul {a x b y} h h' := by
    refine Quiet.res fun hq => ?_
    rw [not_or, not_or] at hq
    obtain ⟨ha, hb, hr⟩ := hq
    obtain ⟨z, e⟩ := h.num ha
    obtain ⟨z', e'⟩ := h'.num hb
    rw [e, e'] at hr ⊢
    exact ⟨hr, _, rfl⟩
  div {a x b y} h h' := by
    refine Quiet.res fun hq => ?_
    rw [not_or, not_or] at hq
    obtain ⟨ha, hb, hr⟩ := hq
    obtain ⟨z, e⟩ := h.num ha
    obtain ⟨z', e'⟩ := h'.num hb
    rw [e, e'] at hr ⊢
    refine ⟨hr, ((Dbl.num x.val z).sgn != (Dbl.num y.val z').sgn), ?_⟩
    show (if y.val = 0 then _ else _) = _
    by_cases hy : y.val = 0
    · exfalso
      apply hr
      left
      intro t s
      show (if y.val = 0 then _ else _) ≠ _
      rw [if_pos hy]
      split <;> (intro h; cases h)
    · rw [if_neg hy]
  fma {a x b y c t} h h' h'' := by
    refine Quiet.res fun hq => ?_
    rw [not_or, not_or, not_or] at hq
    obtain ⟨ha, hb, hc, hr⟩ := hq
    obtain ⟨z, e⟩ := h.num ha
    obtain ⟨z', e'⟩ := h'.num hb
    obtain ⟨z'', e''⟩ := h''.num hc
    rw [e, e', e''] at hr ⊢
    exact ⟨hr, _, rfl⟩
  fms {a x b y c t} h h' h'' := by
    refine Quiet.res fun hq => ?_
    rw [not_or, not_or, not_or] at hq
    obtain ⟨ha, hb, hc, hr⟩ := hq
    obtain ⟨z, e⟩ := h.num ha
    obtain ⟨z', e'⟩ := h'.num hb
    obtain ⟨z'', e''⟩ := h''.num hc
    rw [e, e', e''] at hr ⊢
    exact ⟨hr, ((Dbl.num x.val z).sgn != (Dbl.num y.val z').sgn) && (Dbl.num (-t.val) !z'').sgn, by rw [sub_eq_add_neg]; rfl⟩
  sqrt {a x} h := by
    refine Quiet.res fun hq => ?_
    rw [not_or] at hq
    obtain ⟨ha, hr⟩ := hq
    obtain ⟨z, e⟩ := h.num ha
    rw [e] at hr ⊢
    refine ⟨hr, z, ?_⟩
    show (if x.val ∈ {x : ℝ | 0 ≤ x} then _ else _) = _
    by_cases hx : x.val ∈ {x : ℝ | 0 ≤ x}
    · rw [if_pos hx]
    · exfalso
      apply hr
      left
      intro t s
      show (if x.val ∈ {x : ℝ | 0 ≤ x} then _ else _) ≠ _
      rw [if_neg hx]
      intro h; cases h
  cos {a x} h := by
    refine Quiet.res fun hq => ?_
    rw [not_or] at hq
    obtain ⟨ha, hr⟩ := hq
    obtain ⟨z, e⟩ := h.num ha
    rw [e] at hr ⊢
    refine ⟨hr, z, ?_⟩
    exact if_pos (Set.mem_univ _)
  sin {a x} h := by
    refine Quiet.res fun hq => ?_
    rw [not_or] at hq
    obtain ⟨ha, hr⟩ := hq
    obtain ⟨z, e⟩ := h.num ha
    rw [e] at hr ⊢
    refine ⟨hr, z, ?_⟩
    exact if_pos (Set.mem_univ _)
  mysqrt k hk := by
    rw [moderate_flagged.mysqrt hk, moderate_rounded.mysqrt hk]
    exact .inr ⟨false, rfl⟩

end OTFFT
