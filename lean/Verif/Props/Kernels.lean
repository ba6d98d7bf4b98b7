/-
C75, C76: in floating point arithmetic it does not matter which algorithm class is used.
-/
import Verif.Spec.Kernel
import Verif.Proof.AlgoOnce
import Verif.Props.AccuracyRms
import Verif.Props.Impulse
import Verif.Props.Poison
import Verif.Props.Sign
import Verif.Props.Ieee

namespace OTFFT.Props

open Finset

theorem _root_.OTFFT.KernelLen.usable {kind : AlgoKind} {n : ℕ} (h : KernelLen kind n) : kind.Usable n ∧ ValidLen n := by
  rcases h with ⟨k, h1, h2, rfl⟩ | ⟨rfl, h⟩
  · exact ⟨by cases kind <;> first | exact ⟨k, rfl, h1, h2⟩ | trivial, validLen_pow k h1 (by omega)⟩
  · exact ⟨trivial, h⟩

/-- what a class leaves in memory -/
theorem kernel_computes {F C : Type} [DArith F] [CArith F C] {thr : Thr} {kind : AlgoKind} {n : ℕ} (hk : KernelLen kind n)
    {inv : Bool} {mode : ScaleMode} {w : World C} {x y : Ptr} {v : ℕ → C} (hx : UserArray w x n v) (hy : Alloc w.heap y n)
    (hxy : Sep x n y n) : KernelComputes thr kind n inv mode x y w (algoOut C thr kind inv mode n v) :=
  ⟨Act.wp_mono (algoOnce_spec hk.usable.2 hk.usable.1 hx hy hxy) fun _ _ h => h.2.1, algoOnce_noFail⟩

theorem kernel_exact {thr : Thr} {kind : AlgoKind} {n : ℕ} (hk : KernelLen kind n) {inv : Bool} {mode : ScaleMode} (v : ℕ → ℂ)
    {t : ℕ} (ht : t < n) : algoOut ℂ thr kind inv mode n v t = kernelExact inv mode n v t := by
  rw [algoOut_C hk.usable.1 hk.usable.2.two v ht, scC_eq]
  unfold kernelExact xdft
  rw [show scR n mode = modeFactor n mode by cases mode <;> rfl]
  cases inv <;> rfl

/-! ### C75: accuracy -/

section acc
variable {F : Type} [FArith F] [Inhabited F] {val : F → ℝ} {fin : F → Prop} (hF : Binary64 F val fin)

include hF in
theorem algoOut_err (i : Target) {kind : AlgoKind} {n : ℕ} (hk : KernelLen kind n) {M : ℝ} (hm : 1 / 2 ^ 970 ≤ M)
    (hM : n * M ≤ 2 ^ 1019) {v : ℕ → Xmm F} (hv : ∀ t < n, cfin fin (v t) ∧ ‖cval val (v t)‖ ≤ M) (thr : Thr) (inv : Bool)
    (mode : ScaleMode) :
    letI := i.arith F
    ∀ t < n, cfin fin (algoOut (Xmm F) thr kind inv mode n v t) ∧
      ‖cval val (algoOut (Xmm F) thr kind inv mode n v t) - kernelExact inv mode n (fun j => cval val (v j)) t‖ ≤
        errWeight n / 2 ^ 52 * (modeFactor n mode * n * M) := by
  letI := i.arith F
  intro t ht
  obtain ⟨hu, hn⟩ := hk.usable
  have h2 := hn.two
  have h31 := hn.int.le
  have hn1 : (1:ℝ) ≤ n := by exact_mod_cast (by omega : 1 ≤ n)
  have hM0 : 0 < M := lt_of_lt_of_le (by positivity) hm
  have hf : scR n mode = modeFactor n mode := by cases mode <;> rfl
  have hs := ApLaws.scR_range n mode (by omega) h31
  have hs0 : 0 ≤ scR n mode := le_trans (by positivity) hs.1
  have hw : errWeight n ≤ 2 ^ 52 := by
    have := errWeight_le n
    omega
  have hin : ∀ t < n, (dblFlt hF).Ap (cval val (v t)) (v t) M 0 := fun t ht =>
    ⟨le_trans (one_div_le_one_div_of_le (by positivity) (pow_le_pow_right₀ (by norm_num) (by norm_num))) hm,
      fun _ _ => ⟨(hv t ht).1, (hv t ht).2, by simp [Flt.cv, dblFlt]⟩⟩
  have hsM : scR n mode * M ≤ M := by nlinarith [hs.2]
  have hms : (1:ℝ) / 2 ^ 1010 ≤ scR n mode * M := by
    refine le_trans ?_ (mul_le_mul hs.1 hm (by positivity) (by linarith [hs.1, (by positivity : (0:ℝ) < 1 / 2 ^ 31)]))
    rw [div_mul_div_comm, one_mul, ← pow_add]
    exact one_div_le_one_div_of_le (by positivity) (pow_le_pow_right₀ (by norm_num) (by norm_num))
  have h := ((dblFlt hF).apLaws i).algoOut_ap (thr := thr) (inv := inv) (mode := mode) hu h2 h31 hM hms hin t ht
  obtain ⟨a, -, b⟩ := h.2 (le_trans (mul_le_mul_of_nonneg_left hsM (by linarith)) hM) (by rw [Nat.zero_add]; exact hw)
  rw [Nat.zero_add] at b
  refine ⟨a, ?_⟩
  rw [← kernel_exact (thr := thr) hk _ ht]
  refine le_trans b ?_
  have hp := pow_sub_one_le (dblFlt hF).u_nonneg ((dblFlt hF).pow_le_two hw)
  refine le_trans (mul_le_mul_of_nonneg_left hp (mul_nonneg (by linarith) (mul_nonneg hs0 hM0.le))) (le_of_eq ?_)
  rw [hf, show (dblFlt hF).u = 1 / 2 ^ 53 from rfl]
  ring

include hF in
theorem algoOut_err2 (i : Target) {kind : AlgoKind} {n : ℕ} (hk : KernelLen kind n) {A : ℝ} (hA : 1 / 2 ^ 960 ≤ A)
    (hG : √n * A ≤ 2 ^ 1017) {v : ℕ → Xmm F} (hv : ∀ t < n, cfin fin (v t)) (hvA : norm2 n (fun t => cval val (v t)) ≤ A)
    (thr : Thr) (inv : Bool) (mode : ScaleMode) :
    letI := i.arith F
    (∀ t < n, cfin fin (algoOut (Xmm F) thr kind inv mode n v t)) ∧
      norm2 n (fun t => cval val (algoOut (Xmm F) thr kind inv mode n v t) - kernelExact inv mode n (fun j => cval val (v j)) t) ≤
        errWeight2 n / 2 ^ 52 * (modeFactor n mode * √n * A) := by
  letI := i.arith F
  obtain ⟨hu, hn⟩ := hk.usable
  have h2 := hn.two
  have h31 := hn.int.le
  have hs := ApLaws.scR_range n mode (by omega) h31
  have hs0 := (ApLaws.scR_pos n mode (by omega)).le
  have hf : scR n mode = modeFactor n mode := by cases mode <;> rfl
  have hA0 : 0 ≤ A := le_trans (by positivity) hA
  have hw := weight_lt hn
  have op : (dblFlt hF).Op (range n) (algoOut ℂ thr kind inv mode n) (algoOut (Xmm F) thr kind inv mode n) (√n * scR n mode)
      (errWeight2 n) floor2 (2 * A) := by
    refine Flt.Op.algoOut_op ((dblFlt hF).apLaws i) ?_ hu h2 h31 ⟨floor2_ge, ?_⟩ (floor2_sc hs.1)
    · show 1000 ≤ 2 ^ 52; norm_num
    · show √n * (2 * (2 * A)) ≤ 2 ^ 1019
      have e : (2:ℝ) ^ 1019 = 4 * 2 ^ 1017 := by rw [show 1019 = 2 + 1017 from rfl, pow_add]; norm_num
      rw [e]
      generalize (2:ℝ) ^ 1017 = B at hG ⊢
      linarith
  have hfl := floor2_le h31 hA
  have hX : nrm (range n) (fun t => (dblFlt hF).cv (v t)) + √(#(range n)) * floor2 ≤ 3 / 2 * A := by
    rw [card_range]
    have : nrm (range n) (fun t => (dblFlt hF).cv (v t)) ≤ A := hvA
    linarith
  obtain ⟨a, b⟩ := op.loc v (2 * A) 0 (fun t ht => hv t (mem_range.1 ht)) (by rw [pow_zero, one_mul]; linarith)
    (by show 0 + errWeight2 n ≤ 2 ^ 52; omega) le_rfl
  refine ⟨fun t ht => a t (mem_range.2 ht), ?_⟩
  rw [norm2_eq, nrm_congr (w := fun t => (dblFlt hF).cv (algoOut (Xmm F) thr kind inv mode n v t) -
    algoOut ℂ thr kind inv mode n (fun j => cval val (v j)) t)
    fun t ht => by rw [kernel_exact hk _ (mem_range.1 ht)]; rfl]
  refine le_trans b ?_
  have := mul_le_mul_of_nonneg_left (pow_slack hF (k := errWeight2 n) (by omega) hX hA0)
    (mul_nonneg (Real.sqrt_nonneg (n:ℝ)) hs0)
  rw [mul_assoc]
  refine le_trans this (le_of_eq ?_)
  rw [hf]
  ring

include hF in
/-- C75: whichever algorithm class is used, every result is finite and off by at most `errWeight n · 2⁻⁵² · (factor · n · M)`. -/
theorem C75_accuracy (i : Target) (thr : Thr) {kind : AlgoKind} {n : ℕ} (hk : KernelLen kind n) (inv : Bool) (mode : ScaleMode)
    {w : World (Xmm F)} {x y : Ptr} {v : ℕ → Xmm F} (hx : UserArray w x n v) (hy : Alloc w.heap y n) (hxy : Sep x n y n)
    {M : ℝ} (hm : 1 / 2 ^ 970 ≤ M) (hM : n * M ≤ 2 ^ 1019) (hv : ∀ t < n, cfin fin (v t) ∧ ‖cval val (v t)‖ ≤ M) :
    letI := i.arith F
    ∃ out : ℕ → Xmm F, KernelComputes thr kind n inv mode x y w out ∧
      ∀ t < n, cfin fin (out t) ∧ ‖cval val (out t) - kernelExact inv mode n (fun j => cval val (v j)) t‖ ≤
        errWeight n / 2 ^ 52 * (modeFactor n mode * n * M) := by
  letI := i.arith F
  exact ⟨_, kernel_computes hk hx hy hxy, algoOut_err hF i hk hm hM hv thr inv mode⟩

include hF in
/-- C75: and the 2-norm of the error is at most `errWeight2 n · 2⁻⁵² · (factor · √n · A)`, `A` a bound of the 2-norm of the input. -/
theorem C75_rms (i : Target) (thr : Thr) {kind : AlgoKind} {n : ℕ} (hk : KernelLen kind n) (inv : Bool) (mode : ScaleMode)
    {w : World (Xmm F)} {x y : Ptr} {v : ℕ → Xmm F} (hx : UserArray w x n v) (hy : Alloc w.heap y n) (hxy : Sep x n y n)
    {A : ℝ} (hA : 1 / 2 ^ 960 ≤ A) (hG : √n * A ≤ 2 ^ 1017) (hv : ∀ t < n, cfin fin (v t))
    (hvA : norm2 n (fun t => cval val (v t)) ≤ A) :
    letI := i.arith F
    ∃ out : ℕ → Xmm F, KernelComputes thr kind n inv mode x y w out ∧ (∀ t < n, cfin fin (out t)) ∧
      norm2 n (fun t => cval val (out t) - kernelExact inv mode n (fun j => cval val (v j)) t) ≤
        errWeight2 n / 2 ^ 52 * (modeFactor n mode * √n * A) := by
  letI := i.arith F
  exact ⟨_, kernel_computes hk hx hy hxy, algoOut_err2 hF i hk hA hG hv hvA thr inv mode⟩

include hF in
/-- C75: two algorithm classes, even in builds for different instruction sets and with different threading thresholds, agree
up to twice that error. -/
theorem C75_agree (i i' : Target) (thr thr' : Thr) {kind kind' : AlgoKind} {n : ℕ} (hk : KernelLen kind n)
    (hk' : KernelLen kind' n) (inv : Bool) (mode : ScaleMode)
    {w : World (Xmm F)} {x y : Ptr} {v : ℕ → Xmm F} (hx : UserArray w x n v) (hy : Alloc w.heap y n) (hxy : Sep x n y n)
    {M : ℝ} (hm : 1 / 2 ^ 970 ≤ M) (hM : n * M ≤ 2 ^ 1019) (hv : ∀ t < n, cfin fin (v t) ∧ ‖cval val (v t)‖ ≤ M) :
    ∃ out out' : ℕ → Xmm F,
      (letI := i.arith F; KernelComputes thr kind n inv mode x y w out) ∧
      (letI := i'.arith F; KernelComputes thr' kind' n inv mode x y w out') ∧
      ∀ t < n, ‖cval val (out t) - cval val (out' t)‖ ≤ 2 * errWeight n / 2 ^ 52 * (modeFactor n mode * n * M) := by
  obtain ⟨o, h1, h2⟩ := C75_accuracy hF i thr hk inv mode hx hy hxy hm hM hv
  obtain ⟨o', h1', h2'⟩ := C75_accuracy hF i' thr' hk' inv mode hx hy hxy hm hM hv
  refine ⟨o, o', h1, h1', fun t ht => ?_⟩
  have a := (h2 t ht).2
  have b := (h2' t ht).2
  generalize kernelExact inv mode n (fun j => cval val (v j)) t = z at a b
  have : cval val (o t) - cval val (o' t) = (cval val (o t) - z) - (cval val (o' t) - z) := by ring
  rw [this]
  refine le_trans (norm_sub_le _ _) (le_trans (add_le_add a b) (le_of_eq ?_))
  ring

end acc

/-! ### C76: exact properties -/

section exact
variable {F : Type} [FArith F] [Inhabited F]

/-- C76: every class carries over a relation between doubles that the operations on data preserve. -/
theorem C76_preserved {r : F → F → Prop} (P : Preserved r) (i : Target) (thr : Thr) {kind : AlgoKind} {n : ℕ}
    (hk : KernelLen kind n) (inv : Bool) (mode : ScaleMode) {w w' : World (Xmm F)} {x y x' y' : Ptr} {v v' : ℕ → Xmm F}
    (hx : UserArray w x n v) (hy : Alloc w.heap y n) (hxy : Sep x n y n)
    (hx' : UserArray w' x' n v') (hy' : Alloc w'.heap y' n) (hxy' : Sep x' n y' n) (h : ∀ t < n, Both r (v t) (v' t)) :
    letI := i.arith F
    ∃ out out' : ℕ → Xmm F, KernelComputes thr kind n inv mode x y w out ∧ KernelComputes thr kind n inv mode x' y' w' out' ∧
      ∀ t < n, Both r (out t) (out' t) := by
  letI := i.arith F
  have L := Target.homLaws (pres_of P) i (Equiv.refl _) (Equiv.refl _)
  exact ⟨_, _, kernel_computes hk hx hy hxy, kernel_computes hk hx' hy' hxy',
    L.toLinLaws.algoOut_hom (u := v) (.inl L.mulR) hk.usable.1 hk.usable.2.two h⟩

/-- C76: no class loses a NaN (or another value that the operations keep): if any component of the input is bad, so is a component
of every element of the result. -/
theorem C76_poison {bad : F → Prop} (B : Absorbing bad) (i : Target) (thr : Thr) {kind : AlgoKind} {n : ℕ}
    (hk : KernelLen kind n) (inv : Bool) (mode : ScaleMode) {w : World (Xmm F)} {x y : Ptr} {v : ℕ → Xmm F}
    (hx : UserArray w x n v) (hy : Alloc w.heap y n) (hxy : Sep x n y n) (hb : ∃ j < n, bad (v j 0) ∨ bad (v j 1)) :
    letI := i.arith F
    ∃ out : ℕ → Xmm F, KernelComputes thr kind n inv mode x y w out ∧ ∀ t < n, bad (out t 0) ∨ bad (out t 1) := by
  letI := i.arith F
  refine ⟨_, kernel_computes hk hx hy hxy, ?_⟩
  have L := homBad B i
  obtain ⟨e, he1, he2⟩ : ∃ e : Entry, e.isInv = inv ∧ e.mode = mode := by
    cases inv <;> cases mode
    · exact ⟨.fwd0, rfl, rfl⟩
    · exact ⟨.fwdu, rfl, rfl⟩
    · exact ⟨.fwd, rfl, rfl⟩
    · exact ⟨.inv0, rfl, rfl⟩
    · exact ⟨.invu, rfl, rfl⟩
    · exact ⟨.invn, rfl, rfl⟩
  subst he1 he2
  obtain ⟨j, hj, hb⟩ := hb
  refine all_bad e (fun X Y h t ht => ?_) hj hb
  have := L.toLinLaws.algoOut_hom (thr := thr) (kind := kind) (inv := e.isInv) (mode := e.mode) (.inl L.mulR) hk.usable.1
    hk.usable.2.two h t ht
  rwa [algoOut_C hk.usable.1 hk.usable.2.two _ ht, algoOut_C hk.usable.1 hk.usable.2.two _ ht, ← exact_eq, ← exact_eq] at this

/-- C76: the classes for powers of two treat forward and inverse transforms symmetrically: the inverse transform of the
conjugated input is exactly the conjugate of the forward transform. -/
theorem C76_conjugate {r : Bool → F → F → Prop} (S : Signed r) (i : Target) (thr : Thr) {kind : AlgoKind} {n : ℕ}
    (hk : KernelLen kind n) (hmix : kind ≠ .mixed) (mode : ScaleMode) {w w' : World (Xmm F)} {x y x' y' : Ptr} {v v' : ℕ → Xmm F}
    (hx : UserArray w x n v) (hy : Alloc w.heap y n) (hxy : Sep x n y n)
    (hx' : UserArray w' x' n v') (hy' : Alloc w'.heap y' n) (hxy' : Sep x' n y' n) (h : ∀ t < n, ConjOf r (v t) (v' t)) :
    letI := i.arith F
    ∃ out out' : ℕ → Xmm F, KernelComputes thr kind n false mode x y w out ∧ KernelComputes thr kind n true mode x' y' w' out' ∧
      ∀ t < n, ConjOf r (out t) (out' t) := by
  letI := i.arith F
  exact ⟨_, _, kernel_computes hk hx hy hxy, kernel_computes hk hx' hy' hxy',
    (Target.conjLaws S i).algoOut_conj hk.usable.1 hmix h⟩

end exact

variable [Libm]

section flat
variable {ρ : ℝ → ℝ} {n : ℕ}

theorem rounded_zero (z : Rounded ρ) (hz : z.val = 0) : z = fofNat 0 := by
  cases z
  subst hz
  exact congrArg Rounded.mk Nat.cast_zero.symm

/-- C76: an impulse is transformed into a constant exactly, by every class (the mixed-radix class: forward). -/
theorem C76_impulse (hρ : KeepsDoubles ρ) (i : Target) (thr : Thr) {kind : AlgoKind} (hk : KernelLen kind n) (inv : Bool)
    (hmix : inv = true → kind ≠ .mixed) {w : World (Xmm (Rounded ρ))} {x y : Ptr} {v : ℕ → Xmm (Rounded ρ)}
    (hx : UserArray w x n v) (hy : Alloc w.heap y n) (hxy : Sep x n y n) (c : Xmm (Rounded ρ))
    (hc : ρ (c 0).val = (c 0).val ∧ ρ (c 1).val = (c 1).val) (h0 : v 0 = c)
    (h : ∀ t < n, t ≠ 0 → (v t 0).val = 0 ∧ (v t 1).val = 0) :
    letI := i.arith (Rounded ρ)
    ∃ out : ℕ → Xmm (Rounded ρ), KernelComputes thr kind n inv .scale_1 x y w out ∧ ∀ t < n, out t = c := by
  letI := i.arith (Rounded ρ)
  have L := flatLaws (rounded_zeroOne hρ) i
  refine ⟨_, kernel_computes hk hx hy hxy, fun t ht => ?_⟩
  refine L.algo_imp hk.usable.1 hk.usable.2.two hmix hc (fun t ht => ?_) t ht
  by_cases h1 : t < 1
  · rw [if_pos h1, show t = 0 by omega, h0]
  · rw [if_neg h1]
    obtain ⟨a, b⟩ := h t ht (by omega)
    exact ext2 (rounded_zero _ a) (rounded_zero _ b)

/-- C76: a constant `c` is transformed into `n c` in element 0 and zero elsewhere, exactly, by every class for powers of two. -/
theorem C76_constant (hρ : KeepsDoubles ρ) (i : Target) (thr : Thr) {kind : AlgoKind} (hk : KernelLen kind n) (inv : Bool)
    (hmix : kind ≠ .mixed) {w : World (Xmm (Rounded ρ))} {x y : Ptr} {v : ℕ → Xmm (Rounded ρ)}
    (hx : UserArray w x n v) (hy : Alloc w.heap y n) (hxy : Sep x n y n) (c : Xmm (Rounded ρ))
    (hc : ρ (c 0).val = (c 0).val ∧ ρ (c 1).val = (c 1).val) (h : ∀ t < n, v t = c) :
    letI := i.arith (Rounded ρ)
    ∃ out : ℕ → Xmm (Rounded ρ), KernelComputes thr kind n inv .scale_1 x y w out ∧
      ((out 0 0).val = n * (c 0).val ∧ (out 0 1).val = n * (c 1).val) ∧
      ∀ t < n, t ≠ 0 → (out t 0).val = 0 ∧ (out t 1).val = 0 := by
  letI := i.arith (Rounded ρ)
  have L := flatLaws (rounded_zeroOne hρ) i
  obtain ⟨k, h1, hk24, hn⟩ := hk.resolve_right fun h => hmix h.1
  have key : ∀ t < n, algoOut (Xmm (Rounded ρ)) thr kind inv .scale_1 n v t =
      if t < 1 then FlatLaws.dbl (F := Rounded ρ) k c else cZero (Rounded ρ) :=
    L.algo_con hn hk.usable.1 hmix hc h
  refine ⟨_, kernel_computes hk hx hy hxy, ?_, fun t ht h0 => ?_⟩
  · rw [key 0 (by have := hk.usable.2.two; omega), if_pos (by omega), hn]
    push_cast
    exact dbl_val hρ i hc k
  · rw [key t ht, if_neg (by omega)]
    exact ⟨Nat.cast_zero, Nat.cast_zero⟩

end flat

/-! ### Examples -/

omit [Libm] in
theorem twoArrays_alloc {C : Type} (n : ℕ) (v : ℕ → C) : Alloc (twoArrays n v).heap (Ptr.base 2) n := fun i hi => by
  simp only [twoArrays, Ptr.base, Ptr.loc_add, Nat.zero_add, hi]; simp

omit [Libm] in
theorem twoArrays_sep (n : ℕ) : Sep (Ptr.base 1) n (Ptr.base 2) n := Sep.of_buf (by simp [Ptr.base]) _ _

/-- IEEE doubles: two classes, builds and thread settings, length 2^20, inputs of magnitude at most 1 -/
example (i i' : Target) (thr thr' : Thr) (kind kind' : AlgoKind) (v : ℕ → Xmm Dbl64)
    (hv : ∀ t < 2 ^ 20, cfin Dbl64.Finite (v t) ∧ ‖cval Ieee.val (v t)‖ ≤ 1) :
    ∃ out out' : ℕ → Xmm Dbl64,
      (letI := i.arith Dbl64
       KernelComputes thr kind (2 ^ 20) false .scale_1 (Ptr.base 1) (Ptr.base 2) (twoArrays (2 ^ 20) v) out) ∧
      (letI := i'.arith Dbl64
       KernelComputes thr' kind' (2 ^ 20) false .scale_1 (Ptr.base 1) (Ptr.base 2) (twoArrays (2 ^ 20) v) out') ∧
      ∀ t < 2 ^ 20, ‖cval Ieee.val (out t) - cval Ieee.val (out' t)‖ ≤ 1 / 2 ^ 21 := by
  have hl : ∀ kind, KernelLen kind (2 ^ 20) := fun _ => .inl ⟨20, by omega, by omega, rfl⟩
  obtain ⟨o, o', h, h', b⟩ := C75_agree ieee_binary64 i i' thr thr' (hl kind) (hl kind') false .scale_1
    (twoArrays_ok (2 ^ 20) v) (twoArrays_alloc _ _) (twoArrays_sep _) (M := 1)
    (div_le_one_of_le₀ (one_le_pow₀ (by norm_num)) (by positivity))
    (by
      rw [mul_one]
      have : (((2 ^ 20 : ℕ) : ℕ) : ℝ) = 2 ^ 20 := by norm_num
      rw [this]
      exact pow_le_pow_right₀ (by norm_num) (by norm_num)) hv
  refine ⟨o, o', h, h', fun t ht => le_trans (b t ht) ?_⟩
  rw [C46_weight.1 20]
  norm_num [modeFactor]

/-- a NaN in the input, any class, length 16 -/
example (i : Target) (thr : Thr) (kind : AlgoKind) (v : ℕ → Xmm Dbl64) (h3 : v 3 0 = ⟨.nan⟩) :
    letI := i.arith Dbl64
    ∃ out : ℕ → Xmm Dbl64, KernelComputes thr kind (2 ^ 4) true .scale_length (Ptr.base 1) (Ptr.base 2) (twoArrays (2 ^ 4) v) out ∧
      ∀ t < 2 ^ 4, (out t 0).isNaN ∨ (out t 1).isNaN :=
  C76_poison Ieee.absorb_nan i thr (kind := kind) (.inl ⟨4, by omega, by omega, rfl⟩) true .scale_length
    (twoArrays_ok (2 ^ 4) v) (twoArrays_alloc _ _) (twoArrays_sep _) ⟨3, by omega, .inl (by rw [h3]; trivial)⟩

/-- an impulse of height 3 - 5i, class for radix 16, length 2^13 -/
example (i : Target) (thr : Thr) : letI := i.arith (Rounded rnd53)
    ∃ out : ℕ → Xmm (Rounded rnd53),
      KernelComputes thr (.stock true .r16) (2 ^ 13) true .scale_1 (Ptr.base 1) (Ptr.base 2)
        (twoArrays (2 ^ 13) fun t => if t = 0 then ![⟨3⟩, ⟨-5⟩] else ![⟨0⟩, ⟨0⟩]) out ∧
      ∀ t < 2 ^ 13, out t = ![⟨3⟩, ⟨-5⟩] := by
  refine C76_impulse rnd53_keeps i thr (.inl ⟨13, by omega, by omega, rfl⟩) true (fun _ h => by cases h)
    (twoArrays_ok (2 ^ 13) _) (twoArrays_alloc _ _) (twoArrays_sep _) ![⟨3⟩, ⟨-5⟩] ⟨?_, ?_⟩ rfl fun t _ h0 => ?_
  · show rnd53 3 = 3
    simpa using rnd53_repr (k := 3) (e := 0) (by norm_num)
  · show rnd53 (-5) = -5
    simpa using rnd53_repr (k := -5) (e := 0) (by norm_num)
  · rw [if_neg h0]; exact ⟨rfl, rfl⟩

end OTFFT.Props
