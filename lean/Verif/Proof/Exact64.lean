/-
IEEE 754 doubles and real numbers rounded like doubles, side by side.
-/
import Verif.Proof.Flags

namespace OTFFT

variable [Libm]

/-- a double, and a real number that is rounded like doubles but has no largest value -/
structure Twin where
  d : Dbl64
  r : Rounded rnd64

noncomputable instance : Inhabited Twin := ⟨⟨default, default⟩⟩

noncomputable instance : FArith Twin where
  fadd a b := ⟨fadd a.d b.d, fadd a.r b.r⟩
  fsub a b := ⟨fsub a.d b.d, fsub a.r b.r⟩
  fmul a b := ⟨fmul a.d b.d, fmul a.r b.r⟩
  fdiv a b := ⟨fdiv a.d b.d, fdiv a.r b.r⟩
  fneg a := ⟨fneg a.d, fneg a.r⟩
  fsqrt a := ⟨fsqrt a.d, fsqrt a.r⟩
  fcos a := ⟨fcos a.d, fcos a.r⟩
  fsin a := ⟨fsin a.d, fsin a.r⟩
  fpi := ⟨fpi, fpi⟩
  fofNat n := ⟨fofNat n, fofNat n⟩
  ffma a b c := ⟨ffma a.d b.d c.d, ffma a.r b.r c.r⟩
  ffms a b c := ⟨ffms a.d b.d c.d, ffms a.r b.r c.r⟩
  sqrt1_2 := ⟨sqrt1_2, sqrt1_2⟩
  h1x := ⟨h1x, h1x⟩
  h1y := ⟨h1y, h1y⟩

/-- finite and equal -/
def Twin.Same (a : Twin) : Prop := a.d.Finite ∧ a.d.val = a.r.val

/-- the value of the double -/
noncomputable def Twin.val (a : Twin) : ℝ := a.d.val

omit [Libm] in
theorem fin_rnd {x : ℝ} {z : Bool} (h : Dbl64.Finite ⟨Dbl.rnd rnd64 maxDbl x z⟩) : (⟨Dbl.rnd rnd64 maxDbl x z⟩ : Dbl64).val = rnd64 x := by
  obtain ⟨y, s, e, -⟩ := h
  have e : Dbl.rnd rnd64 maxDbl x z = .num y s := e
  unfold Dbl.rnd at e ⊢
  split at e
  · cases e
  · rename_i h
    rw [if_neg h]
    rfl

theorem twin_binary64 : Binary64 Twin Twin.val Twin.Same where
  add := by
    rintro ⟨⟨a⟩, r⟩ ⟨⟨b⟩, s⟩ ⟨⟨x, z, rfl : a = _, hx⟩, rfl : x = r.val⟩ ⟨⟨y, z', rfl : b = _, hy⟩, rfl : y = s.val⟩ h
    obtain ⟨f, v⟩ := ieee_binary64.add _ _ ⟨_, z, rfl, hx⟩ ⟨_, z', rfl, hy⟩ h
    exact ⟨⟨f, fin_rnd f⟩, v⟩
  sub := by
    rintro ⟨⟨a⟩, r⟩ ⟨⟨b⟩, s⟩ ⟨⟨x, z, rfl : a = _, hx⟩, rfl : x = r.val⟩ ⟨⟨y, z', rfl : b = _, hy⟩, rfl : y = s.val⟩ h
    obtain ⟨f, v⟩ := ieee_binary64.sub _ _ ⟨_, z, rfl, hx⟩ ⟨_, z', rfl, hy⟩ h
    refine ⟨⟨f, (fin_rnd f).trans ?_⟩, v⟩
    rw [← sub_eq_add_neg]
    rfl
  mul := by
    rintro ⟨⟨a⟩, r⟩ ⟨⟨b⟩, s⟩ ⟨⟨x, z, rfl : a = _, hx⟩, rfl : x = r.val⟩ ⟨⟨y, z', rfl : b = _, hy⟩, rfl : y = s.val⟩ h
    obtain ⟨f, v⟩ := ieee_binary64.mul _ _ ⟨_, z, rfl, hx⟩ ⟨_, z', rfl, hy⟩ h
    exact ⟨⟨f, fin_rnd f⟩, v⟩
  div := by
    rintro ⟨⟨a⟩, r⟩ ⟨⟨b⟩, s⟩ ⟨⟨x, z, rfl : a = _, hx⟩, rfl : x = r.val⟩ ⟨⟨y, z', rfl : b = _, hy⟩, rfl : y = s.val⟩ h0 h
    obtain ⟨f, v⟩ := ieee_binary64.div _ _ ⟨_, z, rfl, hx⟩ ⟨_, z', rfl, hy⟩ h0 h
    refine ⟨⟨f, ?_⟩, v⟩
    have e : fdiv (⟨.num r.val z⟩ : Dbl64) ⟨.num s.val z'⟩ =
        ⟨Dbl.rnd rnd64 maxDbl (r.val / s.val) (Dbl.sgn (.num r.val z) != Dbl.sgn (.num s.val z'))⟩ := by
      show (⟨if s.val = 0 then _ else _⟩ : Dbl64) = _
      rw [if_neg (show ¬ s.val = 0 from h0)]
    show (fdiv (⟨.num r.val z⟩ : Dbl64) ⟨.num s.val z'⟩).val = _
    have f : Dbl64.Finite (fdiv (⟨.num r.val z⟩ : Dbl64) ⟨.num s.val z'⟩) := f
    rw [e] at f ⊢
    exact fin_rnd f
  fma := by
    rintro ⟨⟨a⟩, r⟩ ⟨⟨b⟩, s⟩ ⟨⟨c⟩, t⟩ ⟨⟨x, z, rfl : a = _, hx⟩, rfl : x = r.val⟩ ⟨⟨y, z', rfl : b = _, hy⟩, rfl : y = s.val⟩
      ⟨⟨u, z'', rfl : c = _, hu⟩, rfl : u = t.val⟩ h
    obtain ⟨f, v⟩ := ieee_binary64.fma _ _ _ ⟨_, z, rfl, hx⟩ ⟨_, z', rfl, hy⟩ ⟨_, z'', rfl, hu⟩ h
    exact ⟨⟨f, fin_rnd f⟩, v⟩
  fms := by
    rintro ⟨⟨a⟩, r⟩ ⟨⟨b⟩, s⟩ ⟨⟨c⟩, t⟩ ⟨⟨x, z, rfl : a = _, hx⟩, rfl : x = r.val⟩ ⟨⟨y, z', rfl : b = _, hy⟩, rfl : y = s.val⟩
      ⟨⟨u, z'', rfl : c = _, hu⟩, rfl : u = t.val⟩ h
    obtain ⟨f, v⟩ := ieee_binary64.fms _ _ _ ⟨_, z, rfl, hx⟩ ⟨_, z', rfl, hy⟩ ⟨_, z'', rfl, hu⟩ h
    refine ⟨⟨f, (fin_rnd f).trans ?_⟩, v⟩
    rw [← sub_eq_add_neg]
    rfl
  sqrt := by
    rintro ⟨⟨a⟩, r⟩ ⟨⟨x, z, rfl : a = _, hx⟩, rfl : x = r.val⟩ (h0 : 0 ≤ r.val)
    obtain ⟨f, v⟩ := ieee_binary64.sqrt _ ⟨_, z, rfl, hx⟩ h0
    refine ⟨⟨f, ?_⟩, v⟩
    have e : fsqrt (⟨.num r.val z⟩ : Dbl64) = ⟨Dbl.rnd rnd64 maxDbl (√r.val) z⟩ := by
      show (⟨if r.val ∈ {x : ℝ | 0 ≤ x} then _ else _⟩ : Dbl64) = _
      rw [if_pos (show r.val ∈ {x : ℝ | 0 ≤ x} from h0)]
    show (fsqrt (⟨.num r.val z⟩ : Dbl64)).val = _
    have f : Dbl64.Finite (fsqrt (⟨.num r.val z⟩ : Dbl64)) := f
    rw [e] at f ⊢
    exact fin_rnd f
  neg := by
    rintro ⟨⟨a⟩, r⟩ ⟨⟨x, z, rfl : a = _, hx⟩, rfl : x = r.val⟩
    obtain ⟨f, v⟩ := ieee_binary64.neg _ ⟨_, z, rfl, hx⟩
    exact ⟨⟨f, v⟩, v⟩
  ofNat n hn := by
    obtain ⟨f, v⟩ := ieee_binary64.ofNat n hn
    exact ⟨⟨f, v⟩, v⟩
  cos := by
    rintro ⟨⟨a⟩, r⟩ ⟨⟨x, z, rfl : a = _, hx⟩, rfl : x = r.val⟩ h
    obtain ⟨f, v⟩ := ieee_binary64.cos _ ⟨_, z, rfl, hx⟩ h
    refine ⟨⟨f, ?_⟩, v⟩
    have e : fcos (⟨.num r.val z⟩ : Dbl64) = ⟨Dbl.rnd rnd64 maxDbl (Libm.cos r.val) z⟩ := by
      show (⟨Dbl.fn1 rnd64 maxDbl Libm.cos Set.univ (.num r.val z)⟩ : Dbl64) = _
      rw [Dbl.fn1, if_pos (Set.mem_univ _)]
    show (fcos (⟨.num r.val z⟩ : Dbl64)).val = _
    have f : Dbl64.Finite (fcos (⟨.num r.val z⟩ : Dbl64)) := f
    rw [e] at f ⊢
    exact fin_rnd f
  sin := by
    rintro ⟨⟨a⟩, r⟩ ⟨⟨x, z, rfl : a = _, hx⟩, rfl : x = r.val⟩ h
    obtain ⟨f, v⟩ := ieee_binary64.sin _ ⟨_, z, rfl, hx⟩ h
    refine ⟨⟨f, ?_⟩, v⟩
    have e : fsin (⟨.num r.val z⟩ : Dbl64) = ⟨Dbl.rnd rnd64 maxDbl (Libm.sin r.val) z⟩ := by
      show (⟨Dbl.fn1 rnd64 maxDbl Libm.sin Set.univ (.num r.val z)⟩ : Dbl64) = _
      rw [Dbl.fn1, if_pos (Set.mem_univ _)]
    show (fsin (⟨.num r.val z⟩ : Dbl64)).val = _
    have f : Dbl64.Finite (fsin (⟨.num r.val z⟩ : Dbl64)) := f
    rw [e] at f ⊢
    exact fin_rnd f
  pi := by
    obtain ⟨f, v⟩ := ieee_binary64.pi
    exact ⟨⟨f, fin_rnd f⟩, v⟩
  sqrt1_2 := by
    obtain ⟨f, v⟩ := ieee_binary64.sqrt1_2
    exact ⟨⟨f, fin_rnd f⟩, v⟩
  h1x := by
    obtain ⟨f, v⟩ := ieee_binary64.h1x
    exact ⟨⟨f, fin_rnd f⟩, v⟩
  h1y := by
    obtain ⟨f, v⟩ := ieee_binary64.h1y
    exact ⟨⟨f, fin_rnd f⟩, v⟩

theorem moderate_rounded64 : Moderate (Rounded rnd64) fun x => ⟨x⟩ where
  inj h := congrArg Rounded.val h
  nat _ _ := rfl
  div h _ := congrArg Rounded.mk (rnd64_eq h)
  add h _ := congrArg Rounded.mk (rnd64_eq h)

theorem moderate_twin : Moderate Twin fun x => ⟨⟨.num x false⟩, ⟨x⟩⟩ where
  inj h := congrArg (fun a : Twin => a.r.val) h
  nat h1 h2 := congrArg₂ Twin.mk (moderate_dbl.nat h1 h2) (moderate_rounded64.nat h1 h2)
  div h1 h2 := congrArg₂ Twin.mk (moderate_dbl.div h1 h2) (moderate_rounded64.div h1 h2)
  add h1 h2 := congrArg₂ Twin.mk (moderate_dbl.add h1 h2) (moderate_rounded64.add h1 h2)

theorem linked_twin_d : Linked fun (a : Twin) (b : Dbl64) => a.d = b where
  nat _ := rfl
  pi := rfl
  sqrt1_2 := rfl
  h1x := rfl
  h1y := rfl
  neg h := by subst h; rfl
  add h h' := by subst h h'; rfl
  sub h h' := by subst h h'; rfl
  mul h h' := by subst h h'; rfl
  div h h' := by subst h h'; rfl
  fma h h' h'' := by subst h h' h''; rfl
  fms h h' h'' := by subst h h' h''; rfl
  sqrt h := by subst h; rfl
  cos h := by subst h; rfl
  sin h := by subst h; rfl
  mysqrt k hk := by rw [moderate_twin.mysqrt hk, moderate_dbl.mysqrt hk]

theorem linked_twin_r : Linked fun (a : Twin) (b : Rounded rnd64) => a.r = b where
  nat _ := rfl
  pi := rfl
  sqrt1_2 := rfl
  h1x := rfl
  h1y := rfl
  neg h := by subst h; rfl
  add h h' := by subst h h'; rfl
  sub h h' := by subst h h'; rfl
  mul h h' := by subst h h'; rfl
  div h h' := by subst h h'; rfl
  fma h h' h'' := by subst h h' h''; rfl
  fms h h' h'' := by subst h h' h''; rfl
  sqrt h := by subst h; rfl
  cos h := by subst h; rfl
  sin h := by subst h; rfl
  mysqrt k hk := by rw [moderate_twin.mysqrt hk, moderate_rounded64.mysqrt hk]

end OTFFT
