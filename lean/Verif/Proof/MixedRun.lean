/-
The mixed-radix class: table, transform, scale pass.
-/
import Verif.Proof.MixedDFT

namespace OTFFT

set_option linter.unusedSectionVars false

variable {F C : Type} [DArith F] [CArith F C]

/-- entry `p` of the mixed-radix table -/
def mixTabVal (C : Type) [CArith F C] (n p : Nat) : C :=
  let theta0 : F := fdiv (fmul (fofNat 2) fpi) (fofNat n)
  CArith.cmk (fcos (fmul (fofNat p) theta0)) (fneg (fsin (fmul (fofNat p) theta0)))

theorem mixTable_good {R D : Set Loc} {thr : Thr} {n : Nat} {W : Ptr} {h : Heap C}
    (hal : Alloc h W (n + 1)) (hD : Region W (n + 1) ⊆ D) :
    ∃ h', Good R D (mixTable C thr n W) h h' ∧ Arr h' W (n + 1) (mixTabVal C n) ∧
      ∀ l, l ∉ Region W (n + 1) → h' l = h l := by
  unfold mixTable
  obtain ⟨h', g, hv, hf⟩ := phase_store (R := R) (D := D) (h := h) (n := n + 1) (c := 1)
    (fun p _ => W + p) (fun p _ => mixTabVal C n p)
    (fun i _ j _ k l e => ⟨Ptr.add_inj e, Subsingleton.elim _ _⟩)
    (fun i hi k => hal i hi) (fun i hi k => hD (mem_region hi)) (!decide (n < thr.mixed))
  refine ⟨h', g, fun p hp => hv p hp 0, fun l hl => hf l ?_⟩
  rintro p hp k rfl
  exact hl (mem_region hp)

/-- in-place map of an array -/
theorem map_good {R D : Set Loc} (par : Bool) {N : Nat} {x : Ptr} {h : Heap C} {v : Nat → C}
    (f : C → C) {body : Nat → Task C}
    (hbody : body = fun k => bfly (L := 1) (a := 1) (b := 0) (c := 1) (fun _ => vec 1 (x + k))
      Fin.elim0 (fun _ => vec 1 (x + k)) (fun X _ j l => f (X j l)))
    (hax : Arr h x N v) (hR : Region x N ⊆ R) (hD : Region x N ⊆ D) :
    ∃ h', Good R D (Code.loop par (tasks1 N body)) h h' ∧ Arr h' x N (fun t => f (v t)) ∧
      ∀ l, l ∉ Region x N → h' l = h l := by
  subst hbody
  obtain ⟨h', hg, h2, h3⟩ := phase_arr (R := R) (D := D) (h := h) (L := 1) (a := 1) (b := 0) (c := 1)
    (List.range N) List.nodup_range
    (rd := fun p _ => vec 1 (x + p)) (tw := fun _ => Fin.elim0) (wr := fun p _ => vec 1 (x + p))
    (f := fun _ X _ j l => f (X j l)) (fun p _ _ => v p) (fun _ => Fin.elim0) x N
    (fun t => f (v t)) (fun t => t)
    (by
      intro p hp j l
      have hp : p < N := by simpa using hp
      have : l = 0 := Subsingleton.elim _ _
      subst this
      exact hax p hp)
    (fun _ _ j => j.elim0)
    (by
      intro p hp k l
      have hp : p < N := by simpa using hp
      have : l = 0 := Subsingleton.elim _ _
      subst this
      exact ⟨p, hp, rfl, rfl, rfl⟩)
    (by
      intro t ht
      exact ⟨by simpa using ht, 0, 0, rfl⟩)
    hax.alloc
    (by
      intro p hp j l t ht e
      have : l = 0 := Subsingleton.elim _ _
      subst this
      exact (Ptr.add_inj (show x + p = x + t from e)).symm)
    (fun _ _ j => j.elim0)
    (by
      intro p hp j l
      have hp : p < N := by simpa using hp
      have : l = 0 := Subsingleton.elim _ _
      subst this
      exact hR (mem_region hp))
    (fun _ _ j => j.elim0)
    hD
  exact ⟨h', hg.loop _, h2, h3⟩

/-- the scale pass as a function -/
def mixScale (N : Nat) (mode : ScaleMode) (z : C) : C :=
  match mode with
  | .scale_1 => z
  | .scale_length => scl (fdiv (fofNat 1) (fofNat N)) z
  | .scale_unitary => scl (fsqrt (fdiv (fofNat 1) (fofNat N))) z

/-- what the mixed-radix class computes, any arithmetic -/
def mixOut (C : Type) [CArith F C] (inv : Bool) (mode : ScaleMode) (N : Nat) (v : Nat → C) : Nat → C :=
  fun t => mixScale N mode (mixRec inv N (mixTabVal C N) N 1 v t)

theorem mixRun_good {R D : Set Loc} {thr : Thr} {inv : Bool} {mode : ScaleMode} {N : Nat}
    {x y W : Ptr} {v : Nat → C} {h : Heap C} (hN : 1 ≤ N)
    (hpf : ∀ q, q.Prime → q ∣ N → q ≤ 46341)
    (hax : Arr h x N v) (hay : Alloc h y N) (hxy : Sep x N y N)
    (hW : Arr h W (N + 1) (mixTabVal C N)) (hWx : W.buf ≠ x.buf) (hWy : W.buf ≠ y.buf)
    (hRx : Region x N ⊆ R) (hRy : Region y N ⊆ R) (hRW : Region W (N + 1) ⊆ R)
    (hDx : Region x N ⊆ D) (hDy : Region y N ⊆ D) :
    ∃ h', Good R D (mixRun C thr inv mode N x y W) h h' ∧ Arr h' x N (mixOut C inv mode N v) ∧
      ∀ l, l ∉ Region x N → l ∉ Region y N → h' l = h l := by
  unfold mixRun
  simp only
  obtain ⟨h1, g1, a1, f1⟩ := mixFFT_good (inv := inv)
    (path := if N < thr.mixed then .serial else .omp) N 1 N false x y v h hN (by omega) (by omega)
    (fun _ => ⟨rfl, rfl⟩) (Or.inl (Or.inl rfl)) hpf hax hay hxy hW hWx hWy hRx hRy hRW hDx hDy
  simp only [Bool.false_eq_true, if_false] at a1
  cases mode with
  | scale_1 =>
    simp only [List.append_nil]
    exact ⟨h1, g1, a1, f1⟩
  | scale_length =>
    obtain ⟨h2, g2, a2, f2⟩ := map_good (R := R) (D := D) (!decide (N < thr.mixed)) _ rfl a1 hRx hDx
    exact ⟨h2, g1.append g2, a2, fun l hl hl' => by rw [f2 l hl, f1 l hl hl']⟩
  | scale_unitary =>
    obtain ⟨h2, g2, a2, f2⟩ := map_good (R := R) (D := D) (!decide (N < thr.mixed)) _ rfl a1 hRx hDx
    exact ⟨h2, g1.append g2, a2, fun l hl hl' => by rw [f2 l hl, f1 l hl hl']⟩

/-! ### exact values -/

theorem mixTabVal_C (n p : ℕ) : mixTabVal ℂ n p = om false n ^ p := by
  rw [om, ← Complex.exp_nat_mul]
  have e : (p : ℂ) * ((if false = true then 1 else -1) * (2 * Real.pi * Complex.I) / n) =
      ((-(p * (2 * Real.pi / n)) : ℝ) : ℂ) * Complex.I := by
    push_cast; simp; ring
  rw [e]
  apply Complex.ext
  · rw [Complex.exp_ofReal_mul_I_re, Real.cos_neg]
    simp [mixTabVal, CArith.cmk, fcos, fmul, fdiv, fofNat, fpi]
  · rw [Complex.exp_ofReal_mul_I_im, Real.sin_neg]
    simp [mixTabVal, CArith.cmk, fsin, fmul, fdiv, fofNat, fpi, fneg]

theorem mixScale_C (N : ℕ) (mode : ScaleMode) (z : ℂ) : mixScale N mode z = scC N mode * z := by
  cases mode
  · simp [mixScale, scC]
  · simp only [mixScale, scC, scl_C]
    congr 2
    show Real.sqrt (((1:ℕ):ℝ) / _) = _
    push_cast
    rw [one_div, Real.sqrt_inv, one_div]
    rfl
  · simp only [mixScale, scC, scl_C]
    congr 2
    show ((1:ℕ):ℝ) / _ = _
    push_cast; rfl

theorem xdft_smul (inv : Bool) (n : ℕ) (c : ℂ) (v : ℕ → ℂ) (t : ℕ) :
    xdft inv n (fun i => c * v i) t = c * xdft inv n v t := by
  rw [← sdft_one, ← sdft_one, sdft_smul]

theorem mixOut_C (inv : Bool) (mode : ScaleMode) {N : ℕ} (hN : 1 ≤ N) (v : ℕ → ℂ) {t : ℕ}
    (ht : t < N) : mixOut ℂ inv mode N v t = scC N mode * xdft inv N v t := by
  unfold mixOut
  have : (mixTabVal ℂ N : ℕ → ℂ) = omTab N := by funext p; exact mixTabVal_C N p
  rw [mixScale_C, this, mixRec_dft N 1 N v hN (by omega) (by omega) t ht, sdft_one]

end OTFFT
