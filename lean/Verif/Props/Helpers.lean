/-
C71: the routines of the kernel library that no transform calls.
-/
import Verif.Model.Helpers
import Verif.Proof.RFFTTab
import Verif.Proof.History
import Verif.Proof.AlgoOnce
import Verif.Props.Complex
import Verif.Props.Simd

namespace OTFFT.Props

section
variable {F C : Type} [DArith F] [CArith F C]

/-- iterations of the loop -/
def initWCnt (N : ℕ) : ℕ := if N < 8 then 1 else N / 8 + 1
/-- stores of an iteration -/
def initWIts (C : Type) [CArith F C] (N p : ℕ) : List (ℕ × C) := if N < 8 then initWSmall C N else initWStores C N p

theorem initW_eq (thr : Thr) (N : ℕ) (W : Ptr) :
    ∃ par, initW C thr N W = Code.loop par (tasks1 (initWCnt N) fun p => storeList (atPtr W (initWIts C N p))) := by
  unfold initW initWCnt initWIts
  by_cases h : N < 8
  · refine ⟨false, ?_⟩
    rw [if_pos h]
    simp only [if_pos h]
    rfl
  · refine ⟨!decide (N < thr.w), ?_⟩
    rw [if_neg h]
    simp only [if_neg h]
    rfl

theorem initWIts_lt (N : ℕ) : ∀ i < initWCnt N, ∀ tv ∈ initWIts C N i, tv.1 < N + 1 := by
  intro i hi tv ht
  unfold initWCnt at hi
  unfold initWIts at ht
  split at hi
  · rename_i h
    rw [if_pos h] at ht
    unfold initWSmall at ht
    simp only at ht
    split at ht
    · cases ht
    split at ht
    · simp only [List.mem_cons, List.not_mem_nil, or_false] at ht
      rcases ht with rfl | rfl <;> simp only <;> omega
    split at ht
    · simp only [List.mem_cons, List.not_mem_nil, or_false] at ht
      rcases ht with rfl | rfl | rfl <;> simp only <;> omega
    · simp only [List.mem_cons, List.not_mem_nil, or_false] at ht
      rcases ht with rfl | rfl | rfl | rfl | rfl <;> simp only <;> omega
  · rename_i h
    rw [if_neg h] at ht
    unfold initWStores at ht
    simp only [List.mem_cons, List.not_mem_nil, or_false] at ht
    rcases ht with rfl | rfl | rfl | rfl | rfl | rfl | rfl | rfl <;> simp only <;> omega

theorem initWIts_disj (N : ℕ) : ∀ i < initWCnt N, ∀ j < initWCnt N, i ≠ j → ∀ tv ∈ initWIts C N i, ∀ tv' ∈ initWIts C N j, tv.1 ≠ tv'.1 := by
  intro i hi j hj hij tv ht tv' ht'
  unfold initWCnt at hi hj
  unfold initWIts at ht ht'
  split at hi
  · rename_i h
    rw [if_pos h] at hj
    omega
  · rename_i h
    rw [if_neg h] at hj ht ht'
    unfold initWStores at ht ht'
    simp only [List.mem_cons, List.not_mem_nil, or_false] at ht ht'
    rcases ht with rfl | rfl | rfl | rfl | rfl | rfl | rfl | rfl <;>
    rcases ht' with rfl | rfl | rfl | rfl | rfl | rfl | rfl | rfl <;> simp only <;> omega

/-- C71: `init_W` writes nothing but `W[0], …, W[N]`, does not read, and its result does not depend on the schedule of the
parallel loop, for every length and arithmetic. -/
theorem C71_table_deterministic (thr : Thr) (N : ℕ) {W : Ptr} {h : Heap C} (hW : Alloc h W (N + 1)) :
    ∃ h', Deterministic (initW C thr N W) h h' ∧ ∀ l, l ∉ Region W (N + 1) → h' l = h l := by
  obtain ⟨par, he⟩ := initW_eq (C := C) thr N W
  obtain ⟨h', g, -, b, -⟩ := table_loop (R := ∅) (D := Region W (N + 1)) (ofD C (fofNat 0 : F)) par (initWCnt N) (N + 1) W
    (initWIts C N) (initWIts_lt N) (initWIts_disj N) hW (le_refl _)
  exact ⟨h', he ▸ g.deterministic, b⟩

end

theorem initWIts_cov {F C : Type} [DArith F] [CArith F C] {N : ℕ} (hN : N = 1 ∨ N = 2 ∨ (4 ∣ N ∧ 0 < N)) :
    ∀ t < N + 1, ∃ i < initWCnt N, ∃ tv ∈ initWIts C N i, tv.1 = t := by
  intro t ht
  unfold initWCnt initWIts
  by_cases h8 : N < 8
  · simp only [if_pos h8]
    refine ⟨0, by omega, ?_⟩
    have : N = 1 ∨ N = 2 ∨ N = 4 := by omega
    rcases this with rfl | rfl | rfl
    · have : t = 0 ∨ t = 1 := by omega
      rcases this with rfl | rfl <;> simp [initWSmall]
    · have : t = 0 ∨ t = 1 ∨ t = 2 := by omega
      rcases this with rfl | rfl | rfl <;> simp [initWSmall]
    · have : t = 0 ∨ t = 1 ∨ t = 2 ∨ t = 3 ∨ t = 4 := by omega
      rcases this with rfl | rfl | rfl | rfl | rfl <;> simp [initWSmall]
  · simp only [if_neg h8]
    obtain ⟨e, rfl⟩ : 4 ∣ N := by omega
    clear hN
    have e4 : 4 * e / 4 = e := by omega
    have e2 : 4 * e / 2 = 2 * e := by omega
    have e8 : 4 * e / 8 = e / 2 := by omega
    unfold initWStores
    simp only [e4, e2, e8]
    by_cases h0 : t ≤ e / 2
    · exact ⟨t, by omega, _, List.mem_cons_self, rfl⟩
    by_cases h1 : t ≤ e
    · exact ⟨e - t, by omega, _, .tail _ (.head _), by simp only; omega⟩
    by_cases h2 : t ≤ e + e / 2
    · exact ⟨t - e, by omega, _, .tail _ (.tail _ (.head _)), by simp only; omega⟩
    by_cases h3 : t ≤ 2 * e
    · exact ⟨2 * e - t, by omega, _, .tail _ (.tail _ (.tail _ (.head _))), by simp only; omega⟩
    by_cases h4 : t ≤ 2 * e + e / 2
    · exact ⟨t - 2 * e, by omega, _, .tail _ (.tail _ (.tail _ (.tail _ (.head _)))), by simp only; omega⟩
    by_cases h5 : t ≤ 3 * e
    · exact ⟨3 * e - t, by omega, _, .tail _ (.tail _ (.tail _ (.tail _ (.tail _ (.head _))))), by simp only; omega⟩
    by_cases h6 : t ≤ 3 * e + e / 2
    · exact ⟨t - 3 * e, by omega, _, .tail _ (.tail _ (.tail _ (.tail _ (.tail _ (.tail _ (.head _)))))), by simp only; omega⟩
    · exact ⟨4 * e - t, by omega, _, .tail _ (.tail _ (.tail _ (.tail _ (.tail _ (.tail _ (.tail _ (.head _))))))), by simp only; omega⟩

theorem initWIts_val {N : ℕ} (hN : N = 1 ∨ N = 2 ∨ (4 ∣ N ∧ 0 < N)) :
    ∀ p < initWCnt N, ∀ tv ∈ initWIts ℂ N p, tv.2 = om false N ^ tv.1 := by
  intro p hp tv htv
  have self := om_pow_self false (N := N) (by omega)
  unfold initWIts at htv
  unfold initWCnt at hp
  by_cases h8 : N < 8
  · rw [if_pos h8] at htv
    have : N = 1 ∨ N = 2 ∨ N = 4 := by omega
    rcases this with rfl | rfl | rfl
    · simp only [pow_one] at self
      simp only [initWSmall, show ¬ 1 < 1 by omega, show 1 < 2 by omega, if_true, if_false, List.mem_cons, List.not_mem_nil, or_false] at htv
      rcases htv with rfl | rfl <;> simp [self, CArith.cmk, fofNat] <;> rfl
    · simp only [initWSmall, show ¬ 2 < 1 by omega, show ¬ 2 < 2 by omega, show 2 < 4 by omega, if_true, if_false, List.mem_cons, List.not_mem_nil, or_false] at htv
      rcases htv with rfl | rfl | rfl <;> simp only [om_two] <;> apply Complex.ext <;> simp [CArith.cmk, fofNat, fneg]
    · simp only [initWSmall, show ¬ 4 < 1 by omega, show ¬ 4 < 2 by omega, show ¬ 4 < 4 by omega, if_false, List.mem_cons, List.not_mem_nil, or_false] at htv
      have i3 : (-Complex.I) ^ 3 = Complex.I := by
        rw [show 3 = 2 + 1 from rfl, pow_add]; simp
      rcases htv with rfl | rfl | rfl | rfl | rfl <;> simp only [om_four, i3, self, om_four ▸ self] <;> apply Complex.ext <;>
        simp [CArith.cmk, fofNat, fneg]
  · rw [if_neg h8] at hp htv
    obtain ⟨e, rfl⟩ : 4 ∣ N := by omega
    set z := om false (4 * e) ^ p with hz
    have zmk := om_pow_mk (4 * e) p
    have zre : z.re = Real.cos (p * (2 * Real.pi / (4 * e : ℕ))) := by rw [hz, zmk]
    have zim : z.im = -Real.sin (p * (2 * Real.pi / (4 * e : ℕ))) := by rw [hz, zmk]
    have hth : (fmul (fofNat p) (fdiv (fmul (fofNat 2) fpi) (fofNat (4 * e))) : ℝ) = p * (2 * Real.pi / (4 * e : ℕ)) := by
      simp [fmul, fofNat, fdiv, fpi]
    have e4 : 4 * e / 4 = e := by omega
    have e2 : 4 * e / 2 = 2 * e := by omega
    unfold initWStores at htv
    simp only [hth, e4, e2] at htv
    have q : om false (4 * e) ^ e = -Complex.I := by
      rw [om_pow_div false (r := 4) (m := e) (by ring) (by omega), om_four]
    have q2 : om false (4 * e) ^ (2 * e) = -1 := by
      rw [om_pow_div false (r := 2) (m := 2 * e) (by ring) (by omega), om_two]
    have q3 : om false (4 * e) ^ (4 * e - e) = Complex.I := by
      rw [om_pow_sub false _ (by omega), self, q]; simp
    simp only [List.mem_cons, List.not_mem_nil, or_false] at htv
    rcases htv with rfl | rfl | rfl | rfl | rfl | rfl | rfl | rfl
    · simp only
      rw [← hz]
      exact Complex.ext zre.symm zim.symm
    all_goals
      simp only
      first
      | rw [om_pow_sub false _ (by omega)]
      | rw [pow_add]
      simp only [q, q2, q3, self, ← hz]
      apply Complex.ext <;> simp [zre, zim, CArith.cmk, fneg, fcos, fsin]

/-- C71, exact arithmetic: for `N = 1, 2` and the multiples of 4, after `init_W(N, W)` the table holds all powers of
`exp(-2πi/N)`. -/
theorem C71_table (thr : Thr) {N : ℕ} (hN : N = 1 ∨ N = 2 ∨ (4 ∣ N ∧ 0 < N)) {W : Ptr} {h : Heap ℂ} (hW : Alloc h W (N + 1)) :
    ∃ h', Deterministic (initW ℂ thr N W) h h' ∧
      ∀ t ≤ N, h' (W + t).loc = some (some (Complex.exp (-2 * Real.pi * Complex.I / N) ^ t)) := by
  obtain ⟨par, he⟩ := initW_eq (C := ℂ) thr N W
  obtain ⟨h', g, a, -, -⟩ := table_loop (R := ∅) (D := Region W (N + 1)) (ofD ℂ (fofNat 0 : ℝ)) par (initWCnt N) (N + 1) W
    (initWIts ℂ N) (initWIts_lt N) (initWIts_disj N) hW (le_refl _)
  refine ⟨h', he ▸ g.deterministic, fun t ht => ?_⟩
  have hc := initWIts_cov (C := ℂ) hN t (by omega)
  rw [a t hc, tabOf_eq (u := fun t => om false N ^ t) (initWIts_val hN) hc]
  congr 4
  unfold om
  simp

/-- C71: for all other lengths the table is wrong: `init_W` relies on `N/4` and `N/8` without remainder. -/
theorem C71_table_wrong (thr : Thr) {N : ℕ} (h3 : 3 ≤ N) (h4 : ¬ 4 ∣ N) {W : Ptr} {h : Heap ℂ} (hW : Alloc h W (N + 1)) :
    ∃ h', Deterministic (initW ℂ thr N W) h h' ∧
      ∃ t ≤ N, ∃ z, h' (W + t).loc = some (some z) ∧ z ≠ Complex.exp (-2 * Real.pi * Complex.I / N) ^ t := by
  obtain ⟨par, he⟩ := initW_eq (C := ℂ) thr N W
  obtain ⟨h', g, a, -, -⟩ := table_loop (R := ∅) (D := Region W (N + 1)) (ofD ℂ (fofNat 0 : ℝ)) par (initWCnt N) (N + 1) W
    (initWIts ℂ N) (initWIts_lt N) (initWIts_disj N) hW (le_refl _)
  refine ⟨h', he ▸ g.deterministic, ?_⟩
  have hom : Complex.exp (-2 * Real.pi * Complex.I / N) = om false N := by unfold om; simp
  rw [hom]
  have prim := om_prim false (n := N) (by omega)
  -- an entry with a value that has order 2 or 4
  have key : ∀ t z j, t ≤ N → 0 < j * t → j * t < N → z ^ j = 1 → (∃ tv ∈ initWIts ℂ N 0, tv.1 = t) →
      (∀ tv ∈ initWIts ℂ N 0, tv.1 = t → tv.2 = z) →
      ∃ t ≤ N, ∃ z, h' (W + t).loc = some (some z) ∧ z ≠ om false N ^ t := by
    intro t z j ht h0 h1 hz hex hv
    have hc : 0 < initWCnt N := by unfold initWCnt; split <;> omega
    obtain ⟨tv, hm, e1, e2⟩ := lastIdx_some _ t hex
    refine ⟨t, ht, z, ?_, fun e => ?_⟩
    · obtain ⟨q, hq, eq⟩ := hex
      rw [a t ⟨0, hc, q, hq, eq⟩, tabOf_at hc e2 (initWIts_disj N), hv tv hm e1]
    · rw [e, ← pow_mul] at hz
      exact absurd (Nat.le_of_dvd (by rwa [mul_comm]) ((prim.pow_eq_one_iff_dvd _).1 hz)) (by rw [mul_comm]; omega)
  have i4 : (-Complex.I) ^ 4 = 1 := by rw [neg_pow, Complex.I_pow_four]; norm_num
  by_cases h8 : N < 8
  · have : N = 3 ∨ N = 5 ∨ N = 6 ∨ N = 7 := by omega
    rcases this with rfl | h
    · refine key 1 (-1) 2 (by omega) (by omega) (by omega) (by norm_num) ?_ ?_
      · simp [initWIts, initWSmall]
      · intro tv hm e
        simp only [initWIts, initWSmall, show 3 < 8 by omega, show ¬ 3 < 1 by omega, show ¬ 3 < 2 by omega, show 3 < 4 by omega,
          if_true, if_false, List.mem_cons, List.not_mem_nil, or_false] at hm
        rcases hm with rfl | rfl | rfl
        · cases e
        · cases e
        · apply Complex.ext <;> simp [CArith.cmk, fofNat, fneg]
    · refine key 1 (-Complex.I) 4 (by omega) (by omega) (by omega) i4 ?_ ?_
      · rcases h with rfl | rfl | rfl <;> simp [initWIts, initWSmall]
      · intro tv hm e
        simp only [initWIts, initWSmall, h8, show ¬ N < 1 by omega, show ¬ N < 2 by omega, show ¬ N < 4 by omega,
          if_true, if_false, List.mem_cons, List.not_mem_nil, or_false] at hm
        rcases hm with rfl | rfl | rfl | rfl | rfl
        · cases e
        · apply Complex.ext <;> simp [CArith.cmk, fofNat, fneg]
        all_goals cases e
  · refine key (N / 4) (-Complex.I) 4 (by omega) (by omega) (by omega) i4 ?_ ?_
    · unfold initWIts
      rw [if_neg h8]
      unfold initWStores
      exact ⟨_, .tail _ (.head _), by simp⟩
    · intro tv hm e
      unfold initWIts at hm
      rw [if_neg h8] at hm
      unfold initWStores at hm
      simp only [List.mem_cons, List.not_mem_nil, or_false] at hm
      rcases hm with rfl | rfl | rfl | rfl | rfl | rfl | rfl | rfl <;> simp only at e
      · omega
      · apply Complex.ext <;> simp [CArith.cmk, fofNat, fneg, fcos, fsin, fmul]
      · apply Complex.ext <;> simp [CArith.cmk, fofNat, fneg, fcos, fsin, fmul]
      all_goals omega

/-- C71, exact arithmetic: `modq<N, s>(W, p)` reads nothing but the first quarter of the table and returns
`exp(-2πi s p / N)`, for every power of two `N ≥ 4` and all `s`, `p` with `s*p` in the range of `int` (also beyond `N`). The program is
`y[0] = modq<N, s>(W, p)`. -/
theorem C71_lookup {k s p : ℕ} (hk : 2 ≤ k) (hsp : s * p < 2 ^ 31) {W y : Ptr} {h : Heap ℂ}
    (hW : Arr h W (2 ^ k / 4) fun t => Complex.exp (-2 * Real.pi * Complex.I / (2 ^ k : ℕ)) ^ t) (hy : h y.loc ≠ none) :
    Deterministic [[modqMem (fun z => -z) (fun z => Complex.I * z) (fun z => -Complex.I * z) (2 ^ k) s W p
      fun z => .store y.loc z (.ret ())]] h (h.set y.loc (Complex.exp (-2 * Real.pi * Complex.I / (2 ^ k : ℕ)) ^ (s * p))) := by
  have e : (2:ℕ) ^ k / 4 = 2 ^ (k - 2) := by
    obtain ⟨j, rfl⟩ := Nat.exists_eq_add_of_le' hk
    rw [pow_add]; simp
  have hom : Complex.exp (-2 * Real.pi * Complex.I / (2 ^ k : ℕ)) = om false (2 ^ k) := by unfold om; simp
  rw [hom] at hW ⊢
  rw [e] at hW
  set ω := om false (2 ^ k)
  have q : ω ^ 2 ^ (k - 2) = -Complex.I := by
    rw [om_pow_div false (r := 4) (m := 2 ^ (k - 2)) (by
      obtain ⟨j, rfl⟩ := Nat.exists_eq_add_of_le' hk
      rw [pow_add]; simp; ring) (by positivity), om_four]
  have hpow : ω ^ (s * p) = (-Complex.I) ^ (s * p / 2 ^ (k - 2) % 4) * ω ^ (s * p % 2 ^ (k - 2)) := by
    have i4 : (-Complex.I) ^ 4 = 1 := by rw [neg_pow, Complex.I_pow_four]; norm_num
    have im : (-Complex.I) ^ (s * p / 2 ^ (k - 2)) = (-Complex.I) ^ (s * p / 2 ^ (k - 2) % 4) := by
      conv_lhs => rw [← Nat.div_add_mod (s * p / 2 ^ (k - 2)) 4]
      rw [pow_add, pow_mul, i4, one_pow, one_mul]
    rw [← im, ← q, ← pow_mul, ← pow_add, Nat.div_add_mod]
  have tr : ∀ z, z = ω ^ (s * p) →
      Tr Set.univ Set.univ (.store y.loc z (.ret ())) h () (h.set y.loc (ω ^ (s * p))) := by
    rintro _ rfl
    exact Tr.store trivial hy .ret
  refine (Good.single (R := Set.univ) (D := Set.univ) ?_).deterministic
  unfold modqMem
  simp only [e, mylog2_pow]
  rw [if_neg (by omega), Nat.and_two_pow_sub_one_eq_mod]
  refine Tr.load trivial (hW _ (Nat.mod_lt _ (by positivity))) ?_
  have h4 := Nat.mod_lt (s * p / 2 ^ (k - 2)) (show 4 > 0 by norm_num)
  have : (s * p / 2 ^ (k - 2)) % 4 = 0 ∨ (s * p / 2 ^ (k - 2)) % 4 = 1 ∨ (s * p / 2 ^ (k - 2)) % 4 = 2 ∨ (s * p / 2 ^ (k - 2)) % 4 = 3 := by omega
  rcases this with h0 | h0 | h0 | h0 <;> rw [h0] at hpow ⊢ <;> refine tr _ ?_ <;> rw [hpow]
  · simp
  · simp
  · rw [neg_sq, Complex.I_sq]; ring
  · rw [show (-Complex.I) ^ 3 = Complex.I by rw [show 3 = 2 + 1 from rfl, pow_add]; simp]

/-- C71: `swappz(x, y)` exchanges the two cells, also if they are the same. -/
theorem C71_swap {C : Type} {x y : Ptr} {a b : C} {h : Heap C} (hx : h x.loc = some (some a)) (hy : h y.loc = some (some b)) :
    Deterministic [[swappz x y]] h ((h.set x.loc b).set y.loc a) := by
  refine (Good.single (R := Set.univ) (D := Set.univ) ?_).deterministic
  unfold swappz
  refine Tr.load trivial hx (Tr.load trivial hy (Tr.store trivial (by rw [hx]; simp) (Tr.store trivial ?_ .ret)))
  unfold Heap.set
  split
  · simp
  · rw [hy]; simp

/-- C71: `getwp2<s>(W, p)` and `cnj_getwp2<s>(W, p)` read the entries `s*p` and `s*(p+1)` of the table. The programs store the
two lanes to `y[0]`, `y[1]`. -/
theorem C71_pair {F C : Type} [DArith F] [CArith F C] {s p : ℕ} (hsp : s * (p + 1) < 2 ^ 31) {W y : Ptr} {h : Heap C} {a b : C}
    (ha : h (W + s * p).loc = some (some a)) (hb : h (W + s * (p + 1)).loc = some (some b)) (hy : Alloc h y 2) :
    Deterministic [[getwp2 s W p fun ab => .store y.loc ab.1 (.store (y + 1).loc ab.2 (.ret ()))]] h ((h.set y.loc a).set (y + 1).loc b) ∧
    Deterministic [[cnj_getwp2 s W p fun ab => .store y.loc ab.1 (.store (y + 1).loc ab.2 (.ret ()))]] h
      ((h.set y.loc (cnjpz a)).set (y + 1).loc (cnjpz b)) := by
  have e : s * (p + 1) = s * p + s := by ring
  rw [e] at hb hsp
  have key : ∀ a b : C, Tr Set.univ Set.univ (.store y.loc a (.store (y + 1).loc b (.ret ()))) h ()
      ((h.set y.loc a).set (y + 1).loc b) := fun a b => by
    refine Tr.store trivial ?_ (Tr.store trivial ?_ .ret)
    · have := hy 0 (by omega)
      simpa using this
    · have := hy 1 (by omega)
      unfold Heap.set
      split
      · simp
      · exact this
  refine ⟨(Good.single (R := Set.univ) (D := Set.univ) ?_).deterministic, (Good.single (R := Set.univ) (D := Set.univ) ?_).deterministic⟩
  · unfold getwp2
    rw [if_neg (by omega)]
    exact Tr.load trivial ha (Tr.load trivial hb (key a b))
  · unfold cnj_getwp2 getwp2
    rw [if_neg (by omega)]
    exact Tr.load trivial ha (Tr.load trivial hb (key _ _))

theorem logLoop_log (n : ℕ) : logLoop n = Nat.log 2 n := by
  induction n using Nat.strong_induction_on with
  | _ n ih =>
    rw [logLoop]
    split
    · rw [ih (n / 2) (by omega), Nat.log_div_base]
      have := Nat.log_pos (b := 2) (by omega) (show 2 ≤ n by omega)
      omega
    · rw [Nat.log_of_lt (by omega)]

/-- C71: `setup(int n)` of the power-of-two classes behind `FFT_IF` prepares the largest power of two that is not above `n`:
the object computes the transform of `2^⌊log₂ n⌋` elements. If `n` is not a power of two, that is not a transform of length `n`,
and no error is reported. -/
theorem C71_setup (thr : Thr) {kind : AlgoKind} (hkind : kind ≠ .mixed) {n : ℕ} (h2 : 2 ≤ n) (h25 : n < 2 ^ 25) (inv : Bool)
    (mode : ScaleMode) {w : World ℂ} {v : ℕ → ℂ} {x y : Ptr} (hx : UserArray w x (2 ^ Nat.log 2 n) v)
    (hy : Alloc w.heap y (2 ^ Nat.log 2 n)) (hxy : Sep x (2 ^ Nat.log 2 n) y (2 ^ Nat.log 2 n)) :
    (algoOnceInt ℂ thr kind n inv mode x y).wp (fun ok w' =>
      ok = true →
        Arr w'.heap x (2 ^ Nat.log 2 n) (fun t =>
          (match mode with
            | .scale_1 => 1
            | .scale_unitary => ((1 / Real.sqrt (2 ^ Nat.log 2 n) : ℝ) : ℂ)
            | .scale_length => 1 / (2 ^ Nat.log 2 n)) *
          (if inv then Spec.idft (2 ^ Nat.log 2 n) v t else Spec.dft (2 ^ Nat.log 2 n) v t)) ∧
        ∀ l, l ∉ Region x (2 ^ Nat.log 2 n) ∪ Region y (2 ^ Nat.log 2 n) → w'.heap l = w.heap l) w ∧
    (algoOnceInt ℂ thr kind n inv mode x y).NoFail (fun ok => ok = true) := by
  have e : algoOnceInt ℂ thr kind n inv mode x y = algoOnce ℂ thr kind (2 ^ Nat.log 2 n) inv mode x y := by
    unfold algoOnceInt algoOnce
    congr 1
    funext p
    cases p with
    | none => rfl
    | some b =>
      simp only
      have : (Algo.fresh kind b).setupInt ℂ thr n =
          (Algo.fresh kind b).setup ℂ thr (2 ^ Nat.log 2 n : ℕ) (logOf (2 ^ Nat.log 2 n)) := by
        unfold Algo.setupInt Algo.setup
        rw [logOf_pow, logLoop_log]
        cases kind with
        | stock dit rad => rfl
        | six => rfl
        | mixed => exact absurd rfl hkind
      rw [this]
  rw [e]
  exact C13_algorithms_agree thr kind _ (Nat.log_pos (by omega) h2)
    (by have := (Nat.log_lt_iff_lt_pow (b := 2) (by omega) (by omega : n ≠ 0)).2 h25; omega) inv mode hx hy hxy

/-! ### Examples -/

/-- a table of length 40000, built in parallel -/
example : ∃ h', Deterministic (initW ℂ Thr.omp 40000 (Ptr.base 1)) (oneArray 40001 fun _ => (0:ℂ)).heap h' ∧
    ∀ t ≤ 40000, h' (Ptr.base 1 + t).loc = some (some (Complex.exp (-2 * Real.pi * Complex.I / (40000 : ℕ)) ^ t)) :=
  C71_table Thr.omp (Or.inr (Or.inr ⟨by norm_num, by norm_num⟩)) (oneArray_ok 40001 fun _ => (0:ℂ)).arr.alloc

/-- length 10 -/
example (thr : Thr) : ∃ h', Deterministic (initW ℂ thr 10 (Ptr.base 1)) (oneArray 11 fun _ => (0:ℂ)).heap h' ∧
    ∃ t ≤ 10, ∃ z, h' (Ptr.base 1 + t).loc = some (some z) ∧ z ≠ Complex.exp (-2 * Real.pi * Complex.I / (10 : ℕ)) ^ t :=
  C71_table_wrong thr (by norm_num) (by norm_num) (oneArray_ok 11 fun _ => (0:ℂ)).arr.alloc

/-- `modq<16, 3>(W, 7)` with a table of four entries: the 21st power of `exp(-2πi/16)` -/
example : Deterministic [[modqMem (fun z => -z) (fun z => Complex.I * z) (fun z => -Complex.I * z) (2 ^ 4) 3 (Ptr.base 1) 7
      fun z => .store (Ptr.base 1).loc z (.ret ())]]
    (oneArray 4 fun t => Complex.exp (-2 * Real.pi * Complex.I / (2 ^ 4 : ℕ)) ^ t).heap
    ((oneArray 4 fun t => Complex.exp (-2 * Real.pi * Complex.I / (2 ^ 4 : ℕ)) ^ t).heap.set (Ptr.base 1).loc
      (Complex.exp (-2 * Real.pi * Complex.I / (2 ^ 4 : ℕ)) ^ (3 * 7))) := by
  have ok := oneArray_ok 4 fun t => Complex.exp (-2 * Real.pi * Complex.I / (2 ^ 4 : ℕ)) ^ t
  exact C71_lookup (by norm_num) (by norm_num) ok.arr (by have := ok.arr 0 (by omega); simp at this; simp [this])

/-- `setup(12)` prepares a transform of 8 elements -/
example (v : ℕ → ℂ) : ∃ w', (algoOnceInt ℂ Thr.omp .six 12 false .scale_1 (Ptr.base 1) (Ptr.base 2)).Runs (twoArrays 8 v) true w' ∧
    Arr w'.heap (Ptr.base 1) 8 (Spec.dft 8 v) := by
  have e8 : 2 ^ Nat.log 2 12 = 8 := by rw [show Nat.log 2 12 = 3 from (Nat.log_eq_iff (by norm_num)).2 (by norm_num)]; norm_num
  obtain ⟨h1, h2⟩ := C71_setup Thr.omp (kind := .six) (by simp) (n := 12) (by norm_num) (by norm_num) false .scale_1 (v := v)
    (w := twoArrays 8 v) (x := Ptr.base 1) (y := Ptr.base 2) (by rw [e8]; exact twoArrays_ok 8 v)
    (by
      rw [e8]
      intro i hi
      simp only [twoArrays, Ptr.base, Ptr.loc_add, Nat.zero_add, hi]; simp) (Sep.of_buf (by simp [Ptr.base]) _ _)
  obtain ⟨a, w', hr, ha, hq⟩ := Act.wp_exists_ok h1 h2 (by simp [twoArrays])
  subst ha
  rw [e8] at hq
  refine ⟨w', hr, (hq rfl).1.congr fun t _ => ?_⟩
  simp

end OTFFT.Props
