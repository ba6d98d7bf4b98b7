/-
C08 and C09 for the real, cosine and Bluestein transforms; C55: shift, modulation, reversal, conjugation.
-/
import Verif.Proof.Identities
import Verif.Props.DCT
import Verif.Props.Bluestein
import Verif.Props.AccuracyBlue
import Verif.Spec.Identities

namespace OTFFT.Props
open OTFFT Finset

variable {thr : Thr} {n : ℕ}

/-! ### C08: linearity -/

/-- C08: the real transforms, forward: linear over the reals. -/
theorem C08_real_forward (thr : Thr) (e : Entry) (he : e ∈ [Entry.fwd, .fwd0, .fwdu, .fwdn]) (a b : ℝ) (u v : ℕ → ℝ) :
    ∃ U V : ℕ → ℂ,
      (∀ w x y, FwdArgs w n x y u → Computes (realFFT ℂ thr) n [(e, x, y)] w y n U) ∧
      (∀ w x y, FwdArgs w n x y v → Computes (realFFT ℂ thr) n [(e, x, y)] w y n V) ∧
      (∀ w x y, FwdArgs w n x y (fun j => a * u j + b * v j) →
        Computes (realFFT ℂ thr) n [(e, x, y)] w y n fun k => a * U k + b * V k) := by
  have hi : e.isInv = false := by
    simp only [List.mem_cons, List.not_mem_nil, or_false] at he
    rcases he with rfl | rfl | rfl | rfl <;> rfl
  refine ⟨_, _, fun w x y h => real_fwd thr h e hi, fun w x y h => real_fwd thr h e hi, fun w x y h => ?_⟩
  convert real_fwd thr h e hi using 1
  funext k
  rw [Spec.dft_eq, Spec.dft_eq, Spec.dft_eq,
    show (Spec.ofReal fun j => a * u j + b * v j) = fun j => (a : ℂ) * Spec.ofReal u j + b * Spec.ofReal v j by
      funext j; simp [Spec.ofReal], xdft_add]
  ring

/-- C08: the real transforms, inverse: linear over the reals. -/
theorem C08_real_inverse (thr : Thr) (e : Entry) (he : e ∈ [Entry.inv, .inv0, .invu, .invn]) (a b : ℝ) (u v : ℕ → ℂ) :
    ∃ U V : ℕ → ℂ,
      (∀ w x y, InvArgs w n x y u → ComputesIn (realFFT ℂ thr) n [(e, x, y)] w (Region x n) y n U) ∧
      (∀ w x y, InvArgs w n x y v → ComputesIn (realFFT ℂ thr) n [(e, x, y)] w (Region x n) y n V) ∧
      (∀ w x y, InvArgs w n x y (fun j => a * u j + b * v j) →
        ComputesIn (realFFT ℂ thr) n [(e, x, y)] w (Region x n) y n fun k => a * U k + b * V k) := by
  have hi : e.isInv = true := by
    simp only [List.mem_cons, List.not_mem_nil, or_false] at he
    rcases he with rfl | rfl | rfl | rfl <;> rfl
  refine ⟨_, _, fun w x y h => real_inv thr h e hi, fun w x y h => real_inv thr h e hi, fun w x y h => ?_⟩
  convert real_inv thr h e hi using 1
  funext k
  rw [Spec.idft_eq, Spec.idft_eq, Spec.idft_eq, xdft_add]
  ring

theorem dct_all (thr : Thr) (e : DctEntry) (r : ℕ → ℝ) (w : World ℂ) (x : Ptr) (a : DctArgs w n x r) :
    Computes (realDCT ℂ thr) n [(e, x)] w x n (Spec.ofReal (e.exact n r)) := by
  cases e
  · exact cast (by congr 1; funext k; simp [Spec.ofReal, DctEntry.exact, DctEntry.factor]; ring) (C20_forward thr a).2.1
  · exact cast (by congr 1; funext k; simp [Spec.ofReal, DctEntry.exact, DctEntry.factor]) (C20_forward thr a).1
  · exact cast (by congr 1; funext k; simp [Spec.ofReal, DctEntry.exact, DctEntry.factor]; ring) (C20_forward thr a).2.2
  · exact cast (by congr 1; funext k; simp [Spec.ofReal, DctEntry.exact, DctEntry.factor]) (C20_inverse thr a).2.1
  · exact cast (by congr 1; funext k; simp [Spec.ofReal, DctEntry.exact, DctEntry.factor]) (C20_inverse thr a).1
  · exact cast (by congr 1; funext k; simp [Spec.ofReal, DctEntry.exact, DctEntry.factor]; ring) (C20_inverse thr a).2.2

/-- C08: every cosine transform is linear. -/
theorem C08_dct (thr : Thr) (e : DctEntry) (a b : ℝ) (u v : ℕ → ℝ) :
    ∃ U V : ℕ → ℝ,
      (∀ w x, DctArgs w n x u → Computes (realDCT ℂ thr) n [(e, x)] w x n (Spec.ofReal U)) ∧
      (∀ w x, DctArgs w n x v → Computes (realDCT ℂ thr) n [(e, x)] w x n (Spec.ofReal V)) ∧
      (∀ w x, DctArgs w n x (fun j => a * u j + b * v j) →
        Computes (realDCT ℂ thr) n [(e, x)] w x n (Spec.ofReal fun k => a * U k + b * V k)) := by
  refine ⟨_, _, dct_all thr e u, dct_all thr e v, fun w x h => ?_⟩
  convert dct_all thr e _ w x h using 1
  congr 1
  funext k
  cases e <;> simp only [DctEntry.exact, dct_add, dct3_add] <;> ring

/-- C08: every transform of Bluestein's algorithm is linear. -/
theorem C08_bluestein (thr : Thr) (h1 : 1 ≤ n) (h29 : n ≤ 2 ^ 29) (e : Entry) (a b : ℂ) (u v : ℕ → ℂ) :
    ∃ U V : ℕ → ℂ,
      (∀ w x, UserArray w x n u → Computes (bluesteinFFT ℂ thr) n [(e, x)] w x n U) ∧
      (∀ w x, UserArray w x n v → Computes (bluesteinFFT ℂ thr) n [(e, x)] w x n V) ∧
      (∀ w x, UserArray w x n (fun j => a * u j + b * v j) →
        Computes (bluesteinFFT ℂ thr) n [(e, x)] w x n fun k => a * U k + b * V k) := by
  refine ⟨_, _, fun w x h => blue_one thr h1 h29 h e, fun w x h => blue_one thr h1 h29 h e, fun w x h => ?_⟩
  convert blue_one thr h1 h29 h e using 1
  funext k
  rw [xdft_add]
  ring

example (thr : Thr) (u v : ℕ → ℝ) : ∃ U V : ℕ → ℂ,
    Computes (realFFT ℂ thr) 12 [(.fwd, Ptr.base 1, Ptr.base 2)] (twoArrays 12 (Spec.ofReal fun j => 2 * u j + (-3) * v j))
      (Ptr.base 2) 12 fun k => (2 : ℝ) * U k + (-3 : ℝ) * V k := by
  obtain ⟨U, V, _, _, h⟩ := C08_real_forward (n := 12) thr .fwd (by simp) 2 (-3) u v
  exact ⟨U, V, h _ _ _ (twoArrays_fwd (realLen_of_le (m := 6) (by omega) (by omega)) _)⟩

example (thr : Thr) (u v : ℕ → ℝ) : ∃ U V : ℕ → ℝ,
    Computes (realDCT ℂ thr) 12 [(.inv, Ptr.base 1)] (oneArray 12 (Spec.ofReal fun j => 2 * u j + (-3) * v j))
      (Ptr.base 1) 12 (Spec.ofReal fun k => 2 * U k + (-3) * V k) := by
  obtain ⟨U, V, _, _, h⟩ := C08_dct (n := 12) thr .inv 2 (-3) u v
  exact ⟨U, V, h _ _ (oneArray_dct (realLen_of_le (m := 6) (by omega) (by omega)) (by omega) _)⟩

/-! ### C09: Parseval -/

theorem scale_energy (hn : 0 < n) (e : Entry) (v : ℕ → ℂ) :
    (e ∈ [Entry.fwdu, .invu] → Spec.energy n (fun k => scC n e.mode * xdft e.isInv n v k) = Spec.energy n v) ∧
    (e ∈ [Entry.fwd0, .inv, .inv0] → Spec.energy n (fun k => scC n e.mode * xdft e.isInv n v k) = n * Spec.energy n v) ∧
    (e ∈ [Entry.fwd, .fwdn, .invn] → n * Spec.energy n (fun k => scC n e.mode * xdft e.isInv n v k) = Spec.energy n v) := by
  have hpos : (0 : ℝ) < n := by exact_mod_cast hn
  rw [energy_scale, xdft_parseval]
  refine ⟨fun he => ?_, fun he => ?_, fun he => ?_⟩
  · have : e.mode = .scale_unitary := by
      simp only [List.mem_cons, List.not_mem_nil, or_false] at he
      rcases he with rfl | rfl <;> rfl
    rw [this]
    simp only [scC, Complex.normSq_ofReal, div_mul_div_comm, Real.mul_self_sqrt hpos.le]
    field_simp
  · have : e.mode = .scale_1 := by
      simp only [List.mem_cons, List.not_mem_nil, or_false] at he
      rcases he with rfl | rfl | rfl <;> rfl
    rw [this]
    simp [scC]
  · have : e.mode = .scale_length := by
      simp only [List.mem_cons, List.not_mem_nil, or_false] at he
      rcases he with rfl | rfl | rfl <;> rfl
    rw [this]
    simp only [scC, Complex.normSq_ofReal]
    field_simp

/-- C09: the real transforms, forward: all `n` output bins together. -/
theorem C09_real (thr : Thr) {w : World ℂ} {x y : Ptr} {r : ℕ → ℝ} (a : FwdArgs w n x y r) (e : Entry)
    (he : e ∈ [Entry.fwd, .fwd0, .fwdu, .fwdn]) :
    ∃ Y, Computes (realFFT ℂ thr) n [(e, x, y)] w y n Y ∧
      (e = .fwdu → Spec.energy n Y = ∑ j ∈ range n, r j ^ 2) ∧
      (e = .fwd0 → Spec.energy n Y = n * ∑ j ∈ range n, r j ^ 2) ∧
      (e ∈ [Entry.fwd, .fwdn] → n * Spec.energy n Y = ∑ j ∈ range n, r j ^ 2) := by
  have hi : e.isInv = false := by
    simp only [List.mem_cons, List.not_mem_nil, or_false] at he
    rcases he with rfl | rfl | rfl | rfl <;> rfl
  have hr : Spec.energy n (Spec.ofReal r) = ∑ j ∈ range n, r j ^ 2 := by
    unfold Spec.energy Spec.ofReal
    exact sum_congr rfl fun j _ => by rw [Complex.normSq_ofReal, sq]
  obtain ⟨h1, h2, h3⟩ := scale_energy a.len.pos e (Spec.ofReal r)
  rw [hi] at h1 h2 h3
  rw [← hr]
  refine ⟨_, real_fwd thr a e hi, fun h => h1 (by simp [h]), fun h => h2 (by simp [h]), fun h => h3 ?_⟩
  simp only [List.mem_cons, List.not_mem_nil, or_false] at h ⊢
  exact h.elim Or.inl fun h => Or.inr (Or.inl h)

/-- C09: the cosine transforms; bin 0 counts once, every other bin twice. -/
theorem C09_dct (thr : Thr) {w : World ℂ} {x : Ptr} {r : ℕ → ℝ} (a : DctArgs w n x r) :
    ∃ X Y : ℕ → ℝ, Computes (realDCT ℂ thr) n [(.fwd0, x)] w x n (Spec.ofReal X) ∧
      ∑ k ∈ range n, (if k = 0 then 1 else 2) * X k ^ 2 = n * ∑ j ∈ range n, r j ^ 2 ∧
      Computes (realDCT ℂ thr) n [(.inv0, x)] w x n (Spec.ofReal Y) ∧
      ∑ j ∈ range n, Y j ^ 2 = n * ∑ k ∈ range n, (if k = 0 then 1 else 2) * r k ^ 2 := by
  refine ⟨_, _, (C20_forward thr a).1, dct_parseval a.len.even r, (C20_inverse thr a).1, ?_⟩
  have h := dct_parseval a.len.even (Spec.dct3 n r)
  have hn : (n : ℝ) ≠ 0 := by exact_mod_cast a.len.pos.ne'
  have e : ∑ k ∈ range n, (if k = 0 then 1 else 2) * Spec.dct n (Spec.dct3 n r) k ^ 2 =
      (n : ℝ) ^ 2 * ∑ k ∈ range n, (if k = 0 then 1 else 2) * r k ^ 2 := by
    rw [Finset.mul_sum]
    refine sum_congr rfl fun k hk => ?_
    rw [dct_dct3 a.len.even r (mem_range.1 hk)]
    ring
  rw [e] at h
  refine mul_left_cancel₀ hn ?_
  rw [← h]; ring

/-- C09: Bluestein's algorithm. -/
theorem C09_bluestein (thr : Thr) (h1 : 1 ≤ n) (h29 : n ≤ 2 ^ 29) {w : World ℂ} {x : Ptr} {v : ℕ → ℂ} (hx : UserArray w x n v) (e : Entry) :
    ∃ r, Computes (bluesteinFFT ℂ thr) n [(e, x)] w x n r ∧
      (e ∈ [Entry.fwdu, .invu] → Spec.energy n r = Spec.energy n v) ∧
      (e ∈ [Entry.fwd0, .inv, .inv0] → Spec.energy n r = n * Spec.energy n v) ∧
      (e ∈ [Entry.fwd, .fwdn, .invn] → n * Spec.energy n r = Spec.energy n v) :=
  ⟨_, blue_one thr h1 h29 hx e, scale_energy (by omega) e v⟩

example (thr : Thr) (v : ℕ → ℂ) : ∃ r, Computes (bluesteinFFT ℂ thr) 101 [(.invu, Ptr.base 1)] (oneArray 101 v) (Ptr.base 1) 101 r ∧
    Spec.energy 101 r = Spec.energy 101 v := by
  obtain ⟨r, h1, h2, _⟩ := C09_bluestein (n := 101) thr (by omega) (by omega) (oneArray_ok 101 v) .invu
  exact ⟨r, h1, h2 (by simp)⟩

example (thr : Thr) (r : ℕ → ℝ) : ∃ X : ℕ → ℝ, Computes (realDCT ℂ thr) 100 [(.fwd0, Ptr.base 1)] (oneArray 100 (Spec.ofReal r))
    (Ptr.base 1) 100 (Spec.ofReal X) ∧
    ∑ k ∈ range 100, (if k = 0 then 1 else 2) * X k ^ 2 = ((100 : ℕ) : ℝ) * ∑ j ∈ range 100, r j ^ 2 := by
  obtain ⟨X, _, h1, h2, _⟩ := C09_dct thr (oneArray_dct (realLen_of_le (m := 50) (by omega) (by omega)) (by omega) r)
  exact ⟨X, h1, h2⟩

/-! ### C55: Fourier identities -/

theorem om_turn (e : Entry) (n a b : ℕ) : om e.isInv n ^ (a * b) = turn n (e.sign * (a * b)) := by
  unfold om turn
  rw [← Complex.exp_nat_mul]
  congr 1
  cases e <;> simp [Entry.isInv, Entry.sign] <;> ring

theorem turn_neg (n : ℕ) (a : ℝ) : turn n (-a) * turn n a = 1 := by
  unfold turn
  rw [← Complex.exp_add, ← Complex.exp_zero]
  congr 1
  push_cast
  ring

theorem opposite_mode {e e' : Entry} (h : (e, e') ∈ opposite) : e'.isInv = !e.isInv ∧ e'.mode = e.mode := by
  simp only [opposite, List.mem_cons, Prod.mk.injEq, List.not_mem_nil, or_false] at h
  rcases h with ⟨rfl, rfl⟩ | ⟨rfl, rfl⟩ | ⟨rfl, rfl⟩ | ⟨rfl, rfl⟩ | ⟨rfl, rfl⟩ | ⟨rfl, rfl⟩ | ⟨rfl, rfl⟩ | ⟨rfl, rfl⟩ | ⟨rfl, rfl⟩ | ⟨rfl, rfl⟩ <;>
    exact ⟨rfl, rfl⟩

theorem scC_factor (n : ℕ) (e : Entry) : scC n e.mode = (e.factor n : ℂ) := by
  cases e <;> simp [scC, Entry.mode, Entry.factor]

/-- the identities of the relation "`U` is the transform of `u`" -/
theorem identities (hn : 0 < n) : FourierIdentities n fun e u U => ∀ k < n, U k = scC n e.mode * xdft e.isInv n u k where
  shift e u U h s k hk := by
    beta_reduce
    rw [h k hk, ← xdft_shift e.isInv u s k, om_turn]
    linear_combination (scC n e.mode * xdft e.isInv n (fun j => u ((j + s) % n)) k) * (by
      have := turn_neg n (e.sign * (s * k)); rw [neg_mul]; exact this : turn n (-e.sign * (s * k)) * turn n (e.sign * (s * k)) = 1)
  modulate e u U h s k hk := by
    beta_reduce
    rw [h _ (Nat.mod_lt _ hn), ← xdft_modulate e.isInv u s k]
    congr 2
    funext j
    rw [om_turn]
  reverse e u U h k hk := by
    beta_reduce
    rw [h _ (Nat.mod_lt _ hn), xdft_reverse e.isInv u hk]
  conj e u U h k hk := by
    beta_reduce
    rw [h _ (Nat.mod_lt _ hn), xdft_conj e.isInv u hk, map_mul, scC_conj]
  swap e e' u U ho h k hk := by
    beta_reduce
    obtain ⟨h1, h2⟩ := opposite_mode ho
    rw [h _ (Nat.mod_lt _ hn), h1, h2, xdft_not e.isInv u hk]
  swapConj e e' u U ho h k hk := by
    beta_reduce
    obtain ⟨h1, h2⟩ := opposite_mode ho
    rw [h _ hk, h1, h2, xdft_not e.isInv _ hk, xdft_conj e.isInv u (Nat.mod_lt _ hn), map_mul, scC_conj, neg_neg_mod hk]
  twice e u U h k hk := by
    beta_reduce
    have e1 : xdft e.isInv n U k = scC n e.mode * xdft e.isInv n (xdft e.isInv n u) k := by
      rw [xdft_sum, xdft_sum, Finset.mul_sum]
      exact sum_congr rfl fun j hj => by rw [h j (mem_range.1 hj)]; ring
    have e2 := xdft_not e.isInv (xdft e.isInv n u) (Nat.mod_lt (n - k) hn)
    rw [neg_neg_mod hk, xdft_inv e.isInv u (Nat.mod_lt _ hn)] at e2
    rw [e1, ← e2, scC_factor]
    ring
  impulse e a s hs k hk := by
    beta_reduce
    rw [xdft_sum, sum_eq_single s, if_pos rfl, om_turn, scC_factor]
    · ring
    · intro j _ hj; rw [if_neg hj, zero_mul]
    · intro h; exact absurd (mem_range.2 hs) h
  tone e a s hs k hk := by
    beta_reduce
    have e1 : xdft e.isInv n (fun j => a * turn n (-e.sign * (s * j))) k =
        a * ∑ j ∈ range n, om e.isInv n ^ (k * j) * om (!e.isInv) n ^ (s * j) := by
      rw [xdft_sum, Finset.mul_sum]
      refine sum_congr rfl fun j _ => ?_
      have : turn n (-e.sign * (s * j)) = om (!e.isInv) n ^ (s * j) := by
        rw [om_not, inv_pow, om_turn, neg_mul]
        exact eq_inv_of_mul_eq_one_left (turn_neg _ _)
      rw [this, mul_comm j k]
      ring
    rw [e1, om_orth e.isInv hk hs, scC_factor]
    by_cases hks : k = s
    · rw [if_pos hks, if_pos hks]; ring
    · rw [if_neg hks, if_neg hks]; ring

/-- a relation that is the transform on the first `n` entries has the identities -/
theorem identities_of (hn : 0 < n) {G : Entry → (ℕ → ℂ) → (ℕ → ℂ) → Prop}
    (hG : ∀ e u U, G e u U ↔ ∀ k < n, U k = scC n e.mode * xdft e.isInv n u k) : FourierIdentities n G := by
  have : G = fun e u U => ∀ k < n, U k = scC n e.mode * xdft e.isInv n u k := by
    funext e u U; exact propext (hG e u U)
  rw [this]
  exact identities hn

theorem Computes_unique {X : Cls ℂ} {cs : List X.Call} {w : World ℂ} {out : Ptr} {m : ℕ} {r r' : ℕ → ℂ} (hw : w.live.Finite)
    (h : Computes X n cs w out m r) (h' : Computes X n cs w out m r') : ∀ k < m, r k = r' k := by
  intro k hk
  obtain ⟨ok, w', hr, hok, hq⟩ := Act.wp_exists_ok h.1 h.2 hw
  subst hok
  have e1 := (hq.2.1 rfl).1 k hk
  have e2 := ((Act.wp_runs h'.1 hr).2.1 rfl).1 k hk
  exact Option.some.inj (Option.some.inj (e1.symm.trans e2))

theorem Computes_congr {X : Cls ℂ} {cs : List X.Call} {w : World ℂ} {out : Ptr} {m : ℕ} {r r' : ℕ → ℂ}
    (h : Computes X n cs w out m r) (hr : ∀ k < m, r k = r' k) : Computes X n cs w out m r' := by
  refine ⟨Act.wp_mono h.1 ?_, h.2⟩
  rintro ok w' ⟨a, b, c⟩
  exact ⟨a, fun hok => ⟨(b hok).1.congr hr, (b hok).2⟩, c⟩

/-- C55: the transforms of the complex class satisfy the Fourier identities. -/
theorem C55_complex (thr : Thr) (hn : ValidLen n) : FourierIdentities n fun e u U =>
    ∀ w x, UserArray w x n u → Computes (complexFFT ℂ thr) n [(e, x)] w x n U := by
  have h2 := hn.two
  refine identities_of (by omega) fun e u U => ?_
  have key : ∀ w x, UserArray w x n u → Computes (complexFFT ℂ thr) n [(e, x)] w x n fun k => scC n e.mode * xdft e.isInv n u k :=
    fun w x hx => computes_out hn hx [e] _ fun t ht => fftOut_C h2 u ht
  constructor
  · intro h
    have ok := oneArray_ok n u
    exact Computes_unique (by simp [oneArray]) (h _ _ ok) (key _ _ ok)
  · intro h w x hx
    exact Computes_congr (key w x hx) fun k hk => (h k hk).symm

/-- C55: so do the transforms of Bluestein's algorithm. -/
theorem C55_bluestein (thr : Thr) (h1 : 1 ≤ n) (h29 : n ≤ 2 ^ 29) : FourierIdentities n fun e u U =>
    ∀ w x, UserArray w x n u → Computes (bluesteinFFT ℂ thr) n [(e, x)] w x n U := by
  refine identities_of (by omega) fun e u U => ?_
  have key : ∀ w x, UserArray w x n u → Computes (bluesteinFFT ℂ thr) n [(e, x)] w x n fun k => scC n e.mode * xdft e.isInv n u k :=
    fun w x hx => blue_one thr h1 h29 hx e
  constructor
  · intro h
    have ok := oneArray_ok n u
    exact Computes_unique (by simp [oneArray]) (h _ _ ok) (key _ _ ok)
  · intro h w x hx
    exact Computes_congr (key w x hx) fun k hk => (h k hk).symm

/-- C55: real transforms: rotating the signal multiplies bin `k` by a phase, running it backwards conjugates the bins. -/
theorem C55_real (thr : Thr) (e : Entry) (he : e ∈ [Entry.fwd, .fwd0, .fwdu, .fwdn]) (r : ℕ → ℝ) : ∃ Y : ℕ → ℂ,
    (∀ w x y, FwdArgs w n x y r → Computes (realFFT ℂ thr) n [(e, x, y)] w y n Y) ∧
    (∀ s : ℕ, ∀ w x y, FwdArgs w n x y (fun j => r ((j + s) % n)) →
      Computes (realFFT ℂ thr) n [(e, x, y)] w y n fun k => turn n (s * k) * Y k) ∧
    (∀ w x y, FwdArgs w n x y (fun j => r ((n - j) % n)) →
      Computes (realFFT ℂ thr) n [(e, x, y)] w y n fun k => (starRingEnd ℂ) (Y k)) := by
  have hi : e.isInv = false := by
    simp only [List.mem_cons, List.not_mem_nil, or_false] at he
    rcases he with rfl | rfl | rfl | rfl <;> rfl
  have hs : e.sign = -1 := by
    simp only [List.mem_cons, List.not_mem_nil, or_false] at he
    rcases he with rfl | rfl | rfl | rfl <;> rfl
  have base : ∀ (q : ℕ → ℝ) (w : World ℂ) (x y : Ptr), FwdArgs w n x y q →
      Computes (realFFT ℂ thr) n [(e, x, y)] w y n fun k => scC n e.mode * xdft e.isInv n (Spec.ofReal q) k := by
    intro q w x y h
    rw [hi]; exact real_fwd thr h e hi
  refine ⟨_, base r, ?_, ?_⟩
  · intro s w x y h
    refine Computes_congr (base _ w x y h) fun k hk => ?_
    have := (identities h.len.pos).shift e (Spec.ofReal r) _ (fun _ _ => rfl) s k hk
    beta_reduce at this
    rw [hs, neg_neg, one_mul] at this
    exact this.symm
  · intro w x y h
    refine Computes_congr (base _ w x y h) fun k hk => ?_
    have h1 := (identities h.len.pos).reverse e (Spec.ofReal r) _ (fun _ _ => rfl) k hk
    have h2 := (identities h.len.pos).conj e (Spec.ofReal r) _ (fun _ _ => rfl) k hk
    have hc : (fun j => (starRingEnd ℂ) (Spec.ofReal r j)) = Spec.ofReal r := by
      funext j; simp [Spec.ofReal]
    rw [hc] at h2
    refine h1.symm.trans ?_
    have h3 := congrArg (starRingEnd ℂ) h2
    rw [Complex.conj_conj] at h3
    exact h3

/-- C55: cosine transforms: running the signal backwards changes the sign of the odd bins. -/
theorem C55_dct (thr : Thr) (e : DctEntry) (he : e ∈ [DctEntry.fwd, .fwd0, .fwdn]) (r : ℕ → ℝ) : ∃ Y : ℕ → ℝ,
    (∀ w x, DctArgs w n x r → Computes (realDCT ℂ thr) n [(e, x)] w x n (Spec.ofReal Y)) ∧
    (∀ w x, DctArgs w n x (fun j => r (n - 1 - j)) →
      Computes (realDCT ℂ thr) n [(e, x)] w x n (Spec.ofReal fun k => (-1) ^ k * Y k)) := by
  refine ⟨_, dct_all thr e r, fun w x h => Computes_congr (dct_all thr e _ w x h) fun k hk => ?_⟩
  have hn : (n : ℝ) ≠ 0 := by exact_mod_cast h.len.pos.ne'
  have key : Spec.dct n (fun j => r (n - 1 - j)) k = (-1) ^ k * Spec.dct n r k := by
    unfold Spec.dct
    rw [← sum_range_reflect, Finset.mul_sum]
    refine sum_congr rfl fun j hj => ?_
    have hj := mem_range.1 hj
    have e1 : n - 1 - (n - 1 - j) = j := by omega
    have e2 : ((n - 1 - j : ℕ) : ℝ) = n - 1 - j := by
      rw [Nat.cast_sub (by omega), Nat.cast_sub (by omega)]; simp
    have e3 : Real.pi * k * (2 * ((n - 1 - j : ℕ) : ℝ) + 1) / (2 * n) = k * Real.pi - Real.pi * k * (2 * j + 1) / (2 * n) := by
      rw [e2]; field_simp; ring
    beta_reduce
    rw [e1, e3, Real.cos_nat_mul_pi_sub]
    ring
  simp only [Spec.ofReal]
  congr 1
  simp only [List.mem_cons, List.not_mem_nil, or_false] at he
  rcases he with rfl | rfl | rfl <;> simp only [DctEntry.exact, key] <;> ring

/-- a tone of amplitude 2 at frequency 5, length 12: bin 5 of `fwd` is 2, the others are 0 -/
example (thr : Thr) : Computes (complexFFT ℂ thr) 12 [(.fwd, Ptr.base 1)] (oneArray 12 fun j => 2 * turn 12 (5 * j)) (Ptr.base 1) 12
    fun k => if k = 5 then 2 else 0 := by
  have h := (C55_complex thr (validLen_of_le (n := 12) (by omega) (by omega))).tone .fwd 2 5 (by omega)
  have ok := oneArray_ok 12 fun j => 2 * turn 12 (-Entry.sign .fwd * ((5 : ℕ) * j))
  have := h _ _ ok
  simpa [Entry.sign, Entry.factor] using this

example (thr : Thr) (r : ℕ → ℝ) : ∃ Y : ℕ → ℂ,
    Computes (realFFT ℂ thr) 10 [(.fwd0, Ptr.base 1, Ptr.base 2)] (twoArrays 10 (Spec.ofReal r)) (Ptr.base 2) 10 Y ∧
    Computes (realFFT ℂ thr) 10 [(.fwd0, Ptr.base 1, Ptr.base 2)] (twoArrays 10 (Spec.ofReal fun j => r ((j + 3) % 10))) (Ptr.base 2) 10
      fun k => turn 10 (3 * k) * Y k := by
  have hl := realLen_of_le (m := 5) (by omega) (by omega)
  obtain ⟨Y, h1, h2, _⟩ := C55_real (n := 10) thr .fwd0 (by simp) r
  exact ⟨Y, h1 _ _ _ (twoArrays_fwd hl r), by simpa using h2 3 _ _ _ (twoArrays_fwd hl _)⟩

example (thr : Thr) (r : ℕ → ℝ) : ∃ Y : ℕ → ℝ,
    Computes (realDCT ℂ thr) 10 [(.fwd0, Ptr.base 1)] (oneArray 10 (Spec.ofReal r)) (Ptr.base 1) 10 (Spec.ofReal Y) ∧
    Computes (realDCT ℂ thr) 10 [(.fwd0, Ptr.base 1)] (oneArray 10 (Spec.ofReal fun j => r (9 - j))) (Ptr.base 1) 10
      (Spec.ofReal fun k => (-1) ^ k * Y k) := by
  have hl := realLen_of_le (m := 5) (by omega) (by omega)
  obtain ⟨Y, h1, h2⟩ := C55_dct (n := 10) thr .fwd0 (by simp) r
  exact ⟨Y, h1 _ _ (oneArray_dct hl (by omega) r), h2 _ _ (oneArray_dct hl (by omega) _)⟩

end OTFFT.Props
