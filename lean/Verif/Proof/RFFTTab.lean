/-
The weight table of `RFFT`.
-/
import Verif.Proof.Loop
import Verif.Proof.DFTFacts
import Verif.Proof.Objects

namespace OTFFT

variable {F C : Type} [DArith F] [CArith F C]

/-- assignments of one iteration, by index -/
def rfftIts (C : Type) [CArith F C] (N p : Nat) : List (Nat × C) :=
  let theta : F := fmul (fofNat p) (fdiv (fmul (fofNat 2) fpi) (fofNat N))
  let c : F := fcos theta
  let s : F := fneg (fsin theta)
  let one : F := fofNat 1
  let zero : F := fofNat 0
  let Nh := N / 2
  let Nq := N / 4
  let Nd := N - Nq
  if N ≠ 2 ^ logLoop N then [(p, half C (fsub one s) c), (N - p, half C (fadd one s) c)]
  else if N = 1 then [(1, half C one one), (0, half C one one)]
  else if N = 2 then [(2, half C one one), (0, half C one one), (1, half C one (fneg one))]
  else if N = 4 then [(0, half C one one), (1, half C (fofNat 2) zero), (2, half C one (fneg one)),
      (3, half C zero zero), (4, half C one one)]
  else
  [(p, half C (fsub one s) c),
   (Nq - p, half C (fadd one c) (fneg s)),
   (Nq + p, half C (fadd one c) s),
   (Nh - p, half C (fsub one s) (fneg c)),
   (Nh + p, half C (fadd one s) (fneg c)),
   (Nd - p, half C (fsub one c) s),
   (Nd + p, half C (fsub one c) (fneg s)),
   (N - p, half C (fadd one s) c)]

/-- number of iterations -/
def rfftCnt (N : Nat) : Nat :=
  if N ≠ 2 ^ logLoop N then N / 2 + 1 else if N = 1 ∨ N = 2 ∨ N = 4 then 1 else N / 8 + 1

/-- content of the table, any arithmetic -/
def rfftTab (C : Type) [CArith F C] (N t : Nat) : C := tabOf (ofD C (fofNat 0)) (rfftCnt N) (rfftIts C N) t

theorem rfftTable_eq (thr : Thr) {N : Nat} (hN : 1 ≤ N) (U : Ptr) : ∃ par,
    rfftTable C thr N U = Code.loop par (tasks1 (rfftCnt N) fun p => storeList (atPtr U (rfftIts C N p))) := by
  unfold rfftTable
  simp only
  rw [if_neg (by omega)]
  unfold rfftCnt
  split
  · rename_i h
    refine ⟨false, ?_⟩
    congr 2
    funext p
    unfold rfftIts rfftGenStores
    simp only
    rw [if_pos h]
    rfl
  · rename_i h
    by_cases h1 : N = 1
    · subst h1
      refine ⟨false, ?_⟩
      rw [if_pos rfl, if_pos (Or.inl rfl)]
      show _ = [[storeList _]]
      unfold rfftIts
      simp only
      rw [if_neg h, if_pos trivial]
      rfl
    · rw [if_neg h1]
      by_cases h2 : N = 2
      · subst h2
        refine ⟨false, ?_⟩
        rw [if_pos rfl, if_pos (Or.inr (Or.inl rfl))]
        show _ = [[storeList _]]
        unfold rfftIts
        simp only
        rw [if_neg h, if_neg (by decide), if_pos trivial]
        rfl
      · rw [if_neg h2]
        by_cases h4 : N = 4
        · subst h4
          refine ⟨false, ?_⟩
          rw [if_pos rfl, if_pos (Or.inr (Or.inr rfl))]
          show _ = [[storeList _]]
          unfold rfftIts
          simp only
          rw [if_neg h, if_neg (by decide), if_neg (by decide), if_pos trivial]
          rfl
        · rw [if_neg h4, if_neg (by omega)]
          refine ⟨!decide (N < thr.apiW), ?_⟩
          congr 2
          funext p
          unfold rfftIts rfftPowStores
          simp only
          rw [if_neg h, if_neg h1, if_neg h2, if_neg h4]
          rfl

/-- a power of two different from 1, 2, 4 is a multiple of 8 -/
theorem pow_dvd8 {N : Nat} (h : N = 2 ^ logLoop N) (h1 : N ≠ 1) (h2 : N ≠ 2) (h4 : N ≠ 4) : ∃ e, 0 < e ∧ N = 8 * e := by
  have hk : 3 ≤ logLoop N := by
    rcases Nat.lt_or_ge (logLoop N) 3 with hl | hl
    · rw [h] at h1 h2 h4
      have : logLoop N = 0 ∨ logLoop N = 1 ∨ logLoop N = 2 := by omega
      rcases this with e | e | e <;> simp [e] at h1 h2 h4
    · exact hl
  refine ⟨2 ^ (logLoop N - 3), by positivity, ?_⟩
  conv_lhs => rw [h]
  rw [show (8 : Nat) = 2 ^ 3 from rfl, ← pow_add]
  congr 1
  omega

theorem rfftIts_facts {N : Nat} (hN : 1 ≤ N) :
    (∀ i < rfftCnt N, ∀ tv ∈ rfftIts C N i, tv.1 < N + 1) ∧
    (∀ i < rfftCnt N, ∀ j < rfftCnt N, i ≠ j → ∀ tv ∈ rfftIts C N i, ∀ tv' ∈ rfftIts C N j, tv.1 ≠ tv'.1) ∧
    (∀ t < N + 1, ∃ i < rfftCnt N, ∃ tv ∈ rfftIts C N i, tv.1 = t) := by
  unfold rfftCnt rfftIts
  simp only
  split
  · refine ⟨?_, ?_, ?_⟩
    · intro i hi tv ht
      simp only [List.mem_cons, List.not_mem_nil, or_false] at ht
      rcases ht with rfl | rfl <;> simp only <;> omega
    · intro i hi j hj hij tv ht tv' ht'
      simp only [List.mem_cons, List.not_mem_nil, or_false] at ht ht'
      rcases ht with rfl | rfl <;> rcases ht' with rfl | rfl <;> simp only <;> omega
    · intro t ht
      rcases Nat.lt_or_ge t (N / 2 + 1) with h | h
      · exact ⟨t, h, _, List.mem_cons_self, rfl⟩
      · exact ⟨N - t, by omega, _, List.mem_cons_of_mem _ List.mem_cons_self, by simp only; omega⟩
  · rename_i h
    by_cases h1 : N = 1
    · subst h1
      simp only [true_or, if_true]
      refine ⟨?_, ?_, ?_⟩
      · intro i hi tv ht
        simp only [List.mem_cons, List.not_mem_nil, or_false] at ht
        rcases ht with rfl | rfl <;> simp
      · intro i hi j hj hij; omega
      · intro t ht
        refine ⟨0, by omega, ?_⟩
        have : t = 0 ∨ t = 1 := by omega
        rcases this with rfl | rfl <;> simp
    by_cases h2 : N = 2
    · subst h2
      refine ⟨?_, ?_, ?_⟩
      · intro i hi tv ht
        simp only [OfNat.ofNat_ne_one, if_false, if_true, List.mem_cons, List.not_mem_nil, or_false] at ht
        rcases ht with rfl | rfl | rfl <;> simp
      · intro i hi j hj hij
        simp at hi hj
        omega
      · intro t ht
        refine ⟨0, by simp, ?_⟩
        have : t = 0 ∨ t = 1 ∨ t = 2 := by omega
        rcases this with rfl | rfl | rfl <;> simp
    by_cases h4 : N = 4
    · subst h4
      refine ⟨?_, ?_, ?_⟩
      · intro i hi tv ht
        rw [if_neg (by decide), if_neg (by decide), if_pos rfl] at ht
        simp only [List.mem_cons, List.not_mem_nil, or_false] at ht
        rcases ht with rfl | rfl | rfl | rfl | rfl <;> simp
      · intro i hi j hj hij
        simp at hi hj
        omega
      · intro t ht
        refine ⟨0, by simp, ?_⟩
        rw [if_neg (by decide), if_neg (by decide), if_pos rfl]
        have : t = 0 ∨ t = 1 ∨ t = 2 ∨ t = 3 ∨ t = 4 := by omega
        rcases this with rfl | rfl | rfl | rfl | rfl <;> simp
    rw [if_neg (by omega)]
    simp only [if_neg h1, if_neg h2, if_neg h4]
    obtain ⟨e, he, rfl⟩ := pow_dvd8 (by simpa using h) h1 h2 h4
    clear h h1 h2 h4
    have e8 : 8 * e / 8 = e := by omega
    have e4 : 8 * e / 4 = 2 * e := by omega
    have e2 : 8 * e / 2 = 4 * e := by omega
    rw [e8, e4, e2]
    refine ⟨?_, ?_, ?_⟩
    · intro i hi tv ht
      simp only [List.mem_cons, List.not_mem_nil, or_false] at ht
      rcases ht with rfl | rfl | rfl | rfl | rfl | rfl | rfl | rfl <;> simp only <;> omega
    · intro i hi j hj hij tv ht tv' ht'
      simp only [List.mem_cons, List.not_mem_nil, or_false] at ht ht'
      rcases ht with rfl | rfl | rfl | rfl | rfl | rfl | rfl | rfl <;>
      rcases ht' with rfl | rfl | rfl | rfl | rfl | rfl | rfl | rfl <;> simp only <;> omega
    · intro t ht
      rcases Nat.lt_or_ge t (e + 1) with h | h
      · exact ⟨t, by omega, _, List.mem_cons_self, rfl⟩
      rcases Nat.lt_or_ge t (2 * e + 1) with h | h
      · exact ⟨2 * e - t, by omega, _, List.mem_cons_of_mem _ List.mem_cons_self, by simp only; omega⟩
      rcases Nat.lt_or_ge t (3 * e + 1) with h | h
      · exact ⟨t - 2 * e, by omega, _, .tail _ (.tail _ (.head _)), by simp only; omega⟩
      rcases Nat.lt_or_ge t (4 * e + 1) with h | h
      · exact ⟨4 * e - t, by omega, _, .tail _ (.tail _ (.tail _ (.head _))), by simp only; omega⟩
      rcases Nat.lt_or_ge t (5 * e + 1) with h | h
      · exact ⟨t - 4 * e, by omega, _, .tail _ (.tail _ (.tail _ (.tail _ (.head _)))), by simp only; omega⟩
      rcases Nat.lt_or_ge t (6 * e + 1) with h | h
      · exact ⟨6 * e - t, by omega, _, .tail _ (.tail _ (.tail _ (.tail _ (.tail _ (.head _))))), by simp only; omega⟩
      rcases Nat.lt_or_ge t (7 * e + 1) with h | h
      · exact ⟨t - 6 * e, by omega, _, .tail _ (.tail _ (.tail _ (.tail _ (.tail _ (.tail _ (.head _)))))), by simp only; omega⟩
      · exact ⟨8 * e - t, by omega, _, .tail _ (.tail _ (.tail _ (.tail _ (.tail _ (.tail _ (.tail _ (.head _))))))), by simp only; omega⟩

theorem rfftTable_good {R D : Set Loc} {thr : Thr} {N : Nat} {U : Ptr} {h : Heap C} (hal : Alloc h U (N + 1))
    (hD : Region U (N + 1) ⊆ D) :
    ∃ h', Good R D (rfftTable C thr N U) h h' ∧ (1 ≤ N → Arr h' U (N + 1) (rfftTab C N)) ∧
      ∀ l, l ∉ Region U (N + 1) → h' l = h l := by
  rcases Nat.eq_zero_or_pos N with rfl | hN
  · exact ⟨h, .nil, by omega, fun _ _ => rfl⟩
  obtain ⟨par, he⟩ := rfftTable_eq (C := C) thr hN U
  obtain ⟨f1, f2, f3⟩ := rfftIts_facts (C := C) hN
  obtain ⟨h', g, a, b, _⟩ := table_loop (R := R) (D := D) (ofD C (fofNat 0 : F)) par (rfftCnt N) (N + 1) U (rfftIts C N) f1 f2 hal hD
  exact ⟨h', he ▸ g, fun _ t ht => a t (f3 t ht), b⟩

/-! ### exact values -/

theorem om_pow_mk (N p : ℕ) : om false N ^ p =
    ⟨Real.cos (p * (2 * Real.pi / N)), -Real.sin (p * (2 * Real.pi / N))⟩ := by
  rw [om, ← Complex.exp_nat_mul]
  have e : (p : ℂ) * ((if false = true then 1 else -1) * (2 * Real.pi * Complex.I) / N) =
      ((-(p * (2 * Real.pi / N)) : ℝ) : ℂ) * Complex.I := by
    push_cast; simp; ring
  rw [e, Complex.exp_mul_I, ← Complex.ofReal_cos, ← Complex.ofReal_sin, Real.cos_neg, Real.sin_neg]
  apply Complex.ext
  · simp only [Complex.add_re, Complex.ofReal_re, Complex.mul_re, Complex.I_re, Complex.I_im, Complex.ofReal_im]; ring
  · simp only [Complex.add_im, Complex.ofReal_re, Complex.mul_im, Complex.I_re, Complex.I_im, Complex.ofReal_im]; ring

theorem om_pow_conj (inv : Bool) (N p : ℕ) : om inv N ^ p * (starRingEnd ℂ) (om inv N ^ p) = 1 := by
  rw [map_pow, om_conj, om_not, ← mul_pow, mul_inv_cancel₀ (om_ne_zero _ _), one_pow]

theorem om_pow_sub (inv : Bool) (N : ℕ) {m p : ℕ} (h : p ≤ m) :
    om inv N ^ (m - p) = om inv N ^ m * (starRingEnd ℂ) (om inv N ^ p) := by
  have e : om inv N ^ m = om inv N ^ (m - p) * om inv N ^ p := by rw [← pow_add]; congr 1; omega
  rw [e, mul_assoc, om_pow_conj, mul_one]

/-- `(1 + i ω^t)/2` -/
noncomputable def rfftW (N t : ℕ) : ℂ := (1 + Complex.I * om false N ^ t) / 2

theorem half_C (a b : ℝ) (w : ℂ) (h1 : a = 1 - w.im) (h2 : b = w.re) : half ℂ a b = (1 + Complex.I * w) / 2 := by
  unfold half
  subst h1 h2
  apply Complex.ext <;> simp [CArith.cmk, fdiv, fofNat] <;> ring

theorem om_four : om false 4 = -Complex.I := by
  unfold om
  have e : (if false = true then (1 : ℂ) else -1) * (2 * Real.pi * Complex.I) / ((4 : ℕ) : ℂ) = -(Real.pi / 2 * Complex.I) := by
    push_cast; simp; ring
  rw [e, Complex.exp_neg, Complex.exp_pi_div_two_mul_I, Complex.inv_I]

theorem om_two : om false 2 = -1 := by
  have h := om_pow_div false (N := 4) (r := 2) (m := 2) rfl (by omega)
  rw [← h, om_four]
  simp

theorem rfftTab_C {N t : ℕ} (hN : 1 ≤ N) (ht : t < N + 1) : rfftTab ℂ N t = rfftW N t := by
  obtain ⟨f1, f2, f3⟩ := rfftIts_facts (C := ℂ) hN
  refine tabOf_eq ?_ (f3 t ht)
  have self := om_pow_self false (N := N) (by omega)
  intro p hp tv htv
  set z := om false N ^ p with hz
  have zmk := om_pow_mk N p
  have zre : z.re = Real.cos (p * (2 * Real.pi / N)) := by rw [hz, zmk]
  have zim : z.im = -Real.sin (p * (2 * Real.pi / N)) := by rw [hz, zmk]
  unfold rfftIts at htv
  unfold rfftCnt at hp
  have hth : (fmul (fofNat p) (fdiv (fmul (fofNat 2) fpi) (fofNat N)) : ℝ) = p * (2 * Real.pi / N) := by
    simp [fmul, fofNat, fdiv, fpi]
  simp only [hth] at htv
  unfold rfftW
  split at htv
  · rename_i h
    rw [if_pos h] at hp
    simp only [List.mem_cons, List.not_mem_nil, or_false] at htv
    rcases htv with rfl | rfl
    · simp only
      refine half_C _ _ _ ?_ ?_
      · rw [← hz, zim]; simp [fsub, fofNat, fneg, fsin]
      · rw [← hz, zre]; rfl
    · simp only
      rw [om_pow_sub false N (by omega), self, one_mul, ← hz]
      refine half_C _ _ _ ?_ ?_
      · rw [Complex.conj_im, zim]; simp [fadd, fofNat, fneg, fsin]; ring
      · rw [Complex.conj_re, zre]; rfl
  · rename_i h
    rw [if_neg h] at hp
    have hN2 : N = 2 ^ logLoop N := by simpa using h
    split at htv
    · rename_i h1; subst h1
      simp only [pow_one] at self
      simp only [List.mem_cons, List.not_mem_nil, or_false] at htv
      rcases htv with rfl | rfl <;> simp only [pow_one, pow_zero, self] <;>
        exact half_C _ _ _ (by simp [fofNat]) (by simp [fofNat])
    split at htv
    · rename_i h2; subst h2
      simp only [List.mem_cons, List.not_mem_nil, or_false] at htv
      rcases htv with rfl | rfl | rfl <;> simp only [pow_one, pow_zero, self, om_two] <;>
        exact half_C _ _ _ (by simp [fofNat]) (by simp [fofNat, fneg])
    split at htv
    · rename_i h4; subst h4
      simp only [List.mem_cons, List.not_mem_nil, or_false] at htv
      have i3 : (-Complex.I) ^ 3 = Complex.I := by
        rw [show 3 = 2 + 1 from rfl, pow_add]; simp
      rcases htv with rfl | rfl | rfl | rfl | rfl
      · simp only [pow_zero]
        exact half_C _ _ _ (by simp [fofNat]) (by simp [fofNat])
      · simp only [pow_one, om_four]
        exact half_C _ _ _ (by simp [fofNat]; norm_num) (by simp [fofNat])
      · simp only [om_four]
        exact half_C _ _ _ (by simp [fofNat]) (by simp [fofNat, fneg])
      · simp only [om_four, i3]
        exact half_C _ _ _ (by simp [fofNat]) (by simp [fofNat])
      · simp only [self]
        exact half_C _ _ _ (by simp [fofNat]) (by simp [fofNat])
    rename_i h1 h2 h4
    rw [if_neg (by omega)] at hp
    obtain ⟨e, he, rfl⟩ := pow_dvd8 hN2 h1 h2 h4
    clear h hN2 h1 h2 h4
    have e8 : 8 * e / 8 = e := by omega
    have e4 : 8 * e / 4 = 2 * e := by omega
    have e2 : 8 * e / 2 = 4 * e := by omega
    rw [e8] at hp
    rw [e4, e2] at htv
    have q : om false (8 * e) ^ (2 * e) = -Complex.I := by
      rw [om_pow_div false (r := 4) (m := 2 * e) (by ring) (by omega), om_four]
    have q2 : om false (8 * e) ^ (4 * e) = -1 := by
      rw [om_pow_div false (r := 2) (m := 4 * e) (by ring) (by omega), om_two]
    have q3 : om false (8 * e) ^ (8 * e - 2 * e) = Complex.I := by
      rw [om_pow_sub false _ (by omega), self, q]; simp
    simp only [List.mem_cons, List.not_mem_nil, or_false] at htv
    rcases htv with rfl | rfl | rfl | rfl | rfl | rfl | rfl | rfl
    · simp only
      refine half_C _ _ _ ?_ ?_
      · rw [← hz, zim]; simp [fsub, fofNat, fneg, fsin]
      · rw [← hz, zre]; rfl
    all_goals
      simp only
      first
      | rw [om_pow_sub false _ (by omega)]
      | rw [pow_add]
      simp only [q, q2, q3, self, ← hz]
      refine half_C _ _ _ ?_ ?_
      · simp [zre, zim, fadd, fsub, fofNat, fneg, fcos, fsin]; try ring
      · simp [zre, zim, fadd, fofNat, fneg, fcos, fsin, fmul, fdiv, fpi]

end OTFFT
