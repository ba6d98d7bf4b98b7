/-
The four loop shapes of the Stockham stages (decimation in frequency / in time; SIMD lanes along
the inner index `q`, or along `p` when the stride is 1), for any arithmetic.
-/
import Verif.Proof.Kernel
import Mathlib.Data.List.ProdSigma
import Mathlib.Data.List.Nodup
import Mathlib.Tactic.Ring

namespace OTFFT

variable {C : Type}

theorem Ptr.loc_inj {p q : Ptr} (e : p.loc = q.loc) : p = q := by
  cases p; cases q; simpa [Ptr.loc] using e

theorem Ptr.add_inj {p : Ptr} {i j : Nat} (e : p + i = p + j) : i = j := by
  have := congrArg Ptr.off e; simpa using this

theorem Sep.symm {p n q m} (s : Sep p n q m) : Sep q m p n := fun i hi j hj e => s j hj i hi e.symm

theorem Sep.of_buf {p q : Ptr} (h : p.buf ≠ q.buf) (n m) : Sep p n q m := by
  intro i _ j _ e; exact h (by simpa using congrArg Ptr.buf e)

theorem Sep.not_mem {p n q m} (s : Sep p n q m) {l} (h : l ∈ Region p n) : l ∉ Region q m := by
  rintro ⟨j, hj, e⟩
  obtain ⟨i, hi, e'⟩ := h
  exact s i hi j hj (Ptr.loc_inj (e' ▸ e))

theorem Sep.mono {p n q m n' m'} (s : Sep p n q m) (hn : n' ≤ n) (hm : m' ≤ m) : Sep p n' q m' :=
  fun i hi j hj => s i (by omega) j (by omega)

theorem tasks2_eq (m k : Nat) (f : Nat → Nat → Task C) :
    tasks2 m k f = (List.range m ×ˢ List.range k).map fun pi => f pi.1 pi.2 := by
  simp [tasks2, SProd.sprod, List.product, List.map_flatMap, Function.comp_def]

theorem nodup_prod_range (m k : Nat) : (List.range m ×ˢ List.range k).Nodup :=
  List.Nodup.product List.nodup_range List.nodup_range

/-- the flattened index loop `for (i = 0; i < m*k; i++) { p = i/k; q = i%k; … }` has the same
iterations in the same order as the nested loop -/
theorem flat_eq_tasks2 (m k : Nat) (f : Nat → Nat → Task C) :
    tasks1 (m * k) (fun i => f (i / k) (i % k)) = tasks2 m k f := by
  rcases Nat.eq_zero_or_pos k with rfl | hk
  · simp [tasks1, tasks2]
  unfold tasks1 tasks2
  induction m with
  | zero => simp
  | succ m ih =>
    rw [Nat.succ_mul, List.range_add, List.map_append, ih, List.range_succ, List.flatMap_append]
    congr 1
    simp only [List.map_map, List.flatMap_cons, List.flatMap_nil, List.append_nil]
    apply List.map_congr_left
    intro i hi
    have hi : i < k := by simpa using hi
    simp only [Function.comp]
    congr 1
    · rw [Nat.mul_comm, Nat.mul_add_div hk, Nat.div_eq_of_lt hi, Nat.add_zero]
    · rw [Nat.mul_comm, Nat.mul_add_mod, Nat.mod_eq_of_lt hi]

theorem cnt_of_dvd {s L : Nat} (hL : 0 < L) (h : L ∣ s) : cnt s L = s / L := by
  obtain ⟨c, rfl⟩ := h
  unfold cnt
  rw [Nat.mul_div_cancel_left _ hL]
  have : L * c + L - 1 = L * c + (L - 1) := by omega
  rw [this, Nat.mul_add_div hL, Nat.div_eq_of_lt (by omega), Nat.add_zero]

theorem cnt_one (s : Nat) : cnt s 1 = s := by simp [cnt]

/-! ### Index arithmetic -/

section idx
variable {s r m q p k : Nat}

theorem idx_mod (hq : q < s) (c : Nat) : (q + s * c) % s = q := by
  rw [Nat.add_mul_mod_self_left, Nat.mod_eq_of_lt hq]
theorem idx_div (hq : q < s) (c : Nat) : (q + s * c) / s = c := by
  rw [Nat.add_mul_div_left _ _ (by omega), Nat.div_eq_of_lt hq, Nat.zero_add]
theorem idx_lt (hq : q < s) {c b : Nat} (hc : c < b) : q + s * c < s * b := by
  calc q + s * c < s + s * c := by omega
    _ = s * (c + 1) := by ring
    _ ≤ s * b := Nat.mul_le_mul_left _ hc

end idx

/-- Decimation-in-frequency stage as a function on arrays: entry `q + s(rp+k)` of the result is
component `k` of the butterfly for `p` applied to `v(q + s(p + mj))`, `j < r`. -/
def difPure (r m s : Nat) [NeZero r] (G : Nat → (Fin r → C) → Fin r → C) (v : Nat → C) : Nat → C :=
  fun t => G (t / s / r) (fun j => v (t % s + s * (t / s / r + m * j.val))) (Fin.ofNat r (t / s))

/-- Decimation-in-time stage: entry `q + s(p+mk)` of the result is component `k` of the butterfly
for `p` applied to `v(q + s(rp + j))`, `j < r`. -/
def ditPure (r m s : Nat) [NeZero r] (G : Nat → (Fin r → C) → Fin r → C) (v : Nat → C) : Nat → C :=
  fun t => G (t / s % m) (fun j => v (t % s + s * (r * (t / s % m) + j.val)))
    (Fin.ofNat r (t / s / m))

theorem ofNat_of_mod {r : Nat} [NeZero r] (k : Fin r) {c : Nat} (h : c % r = k.val) :
    Fin.ofNat r c = k := by
  apply Fin.ext; simpa [Fin.ofNat] using h

theorem difPure_at {r m s : Nat} [NeZero r] (G : Nat → (Fin r → C) → Fin r → C) (v : Nat → C)
    {q : Nat} (hq : q < s) (p : Nat) (k : Fin r) :
    difPure r m s G v (q + s * (r * p + k.val)) =
      G p (fun j => v (q + s * (p + m * j.val))) k := by
  have hr : 0 < r := Nat.pos_of_ne_zero (NeZero.ne r)
  unfold difPure
  rw [idx_mod hq, idx_div hq]
  have e : (r * p + k.val) / r = p := by
    rw [Nat.mul_add_div hr, Nat.div_eq_of_lt k.isLt, Nat.add_zero]
  rw [e, ofNat_of_mod k (by rw [Nat.mul_add_mod, Nat.mod_eq_of_lt k.isLt])]

theorem ditPure_at {r m s : Nat} [NeZero r] (G : Nat → (Fin r → C) → Fin r → C) (v : Nat → C)
    {q : Nat} (hq : q < s) {p : Nat} (hp : p < m) (k : Fin r) :
    ditPure r m s G v (q + s * (p + m * k.val)) =
      G p (fun j => v (q + s * (r * p + j.val))) k := by
  unfold ditPure
  rw [idx_mod hq, idx_div hq, idx_mod hp, idx_div hp,
    ofNat_of_mod k (Nat.mod_eq_of_lt k.isLt)]

section stages
variable {R D : Set Loc} {h : Heap C} {x y : Ptr} {v : Nat → C} {r b L m s N : Nat} [NeZero r]

/-- DIF stage, SIMD lanes along `q`; for `m = 1` the stage may work in place. -/
theorem difA (par : Bool) (G : Nat → (Fin r → C) → Fin r → C)
    {rd : Nat → Nat → Fin r → Fin L → Ptr} {tw : Nat → Nat → Fin b → Fin L → Ptr}
    {wr : Nat → Nat → Fin r → Fin L → Ptr}
    {f : Nat → Nat → (Fin r → Fin L → C) → (Fin b → Fin L → C) → (Fin r → Fin L → C)}
    (tv : Nat → Nat → Fin b → Fin L → C)
    (hN : N = s * (r * m)) (hL : 0 < L) (hLs : L ∣ s)
    (hax : Arr h x N v) (hay : Alloc h y N) (hxy : Sep x N y N ∨ (x = y ∧ m = 1))
    (hrd : ∀ p < m, ∀ i < s / L, ∀ j l, rd p i j l = x + (L * i + l.val + s * (p + m * j.val)))
    (hwr : ∀ p < m, ∀ i < s / L, ∀ k l, wr p i k l = y + (L * i + l.val + s * (r * p + k.val)))
    (htw : ∀ p < m, ∀ i < s / L, ∀ j l, h (tw p i j l).loc = some (some (tv p i j l)) ∧
      (tw p i j l).loc ∈ R ∧ (tw p i j l).loc ∉ Region y N)
    (hf : ∀ p < m, ∀ i < s / L, ∀ xs k l, f p i xs (tv p i) k l = G p (fun j => xs j l) k)
    (hRx : Region x N ⊆ R) (hDy : Region y N ⊆ D) :
    ∃ h', Good R D (Code.loop par (tasks2 m (cnt s L) fun p i =>
        bfly (rd p i) (tw p i) (wr p i) (f p i))) h h' ∧
      Arr h' y N (difPure r m s G v) ∧ ∀ l, l ∉ Region y N → h' l = h l := by
  have hr : 0 < r := Nat.pos_of_ne_zero (NeZero.ne r)
  rw [cnt_of_dvd hL hLs, tasks2_eq]
  have hq : ∀ {i : Nat} (l : Fin L), i < s / L → L * i + l.val < s := by
    intro i l hi
    have : L * (i + 1) ≤ L * (s / L) := Nat.mul_le_mul_left _ hi
    rw [Nat.mul_div_cancel' hLs] at this
    have := l.isLt
    rw [Nat.mul_add] at *; omega
  have hown : ∀ {p i : Nat} (l : Fin L) (k : Fin r), i < s / L →
      (((L * i + l.val + s * (r * p + k.val)) / s / r,
        (L * i + l.val + s * (r * p + k.val)) % s / L) : Nat × Nat) = (p, i) := by
    intro p i l k hi
    rw [idx_div (hq l hi), idx_mod (hq l hi), Nat.mul_add_div hr, Nat.div_eq_of_lt k.isLt,
      Nat.mul_add_div hL, Nat.div_eq_of_lt l.isLt]
    simp
  have hlt : ∀ {p i : Nat} (l : Fin L) (k : Fin r), p < m → i < s / L →
      L * i + l.val + s * (r * p + k.val) < N := by
    intro p i l k hp hi
    rw [hN]
    apply idx_lt (hq l hi)
    have := idx_lt k.isLt hp
    omega
  have hltx : ∀ {p i : Nat} (l : Fin L) (j : Fin r), p < m → i < s / L →
      L * i + l.val + s * (p + m * j.val) < N := by
    intro p i l j hp hi
    rw [hN]
    apply idx_lt (hq l hi)
    have := idx_lt hp j.isLt
    rw [Nat.mul_comm r m]; omega
  obtain ⟨h', hg, h2, h3⟩ := phase_arr (R := R) (D := D)
    (is := List.range m ×ˢ List.range (s / L)) (nodup_prod_range _ _)
    (rd := fun pi => rd pi.1 pi.2) (tw := fun pi => tw pi.1 pi.2) (wr := fun pi => wr pi.1 pi.2)
    (f := fun pi => f pi.1 pi.2) (h := h)
    (fun pi j l => v (L * pi.2 + l.val + s * (pi.1 + m * j.val)))
    (fun pi => tv pi.1 pi.2) y N (difPure r m s G v) (fun t => (t / s / r, t % s / L))
    (by
      rintro ⟨p, i⟩ hpi j l
      simp at hpi
      rw [hrd p hpi.1 i hpi.2]
      exact hax _ (hltx l j hpi.1 hpi.2))
    (by
      rintro ⟨p, i⟩ hpi j l
      simp at hpi
      exact (htw p hpi.1 i hpi.2 j l).1)
    (by
      rintro ⟨p, i⟩ hpi k l
      simp at hpi
      refine ⟨_, hlt l k hpi.1 hpi.2, hwr p hpi.1 i hpi.2 k l, hown l k hpi.2, ?_⟩
      rw [hf p hpi.1 i hpi.2, difPure_at G v (hq l hpi.2)])
    (by
      intro t ht
      have hs : 0 < s := by
        rcases Nat.eq_zero_or_pos s with h0 | h0
        · rw [hN, h0] at ht; simp at ht
        · exact h0
      have h1 : t / s < r * m := Nat.div_lt_of_lt_mul (hN ▸ ht)
      have h2 : t / s / r < m := Nat.div_lt_of_lt_mul h1
      have h3 : t % s / L < s / L := by
        apply Nat.div_lt_of_lt_mul
        rw [Nat.mul_div_cancel' hLs]; exact Nat.mod_lt _ hs
      refine ⟨by simp [h2, h3], ⟨t / s % r, Nat.mod_lt _ hr⟩, ⟨t % s % L, Nat.mod_lt _ hL⟩, ?_⟩
      rw [hwr _ h2 _ h3]
      congr 1
      simp only
      rw [Nat.div_add_mod, Nat.div_add_mod, Nat.mod_add_div])
    hay
    (by
      rintro ⟨p, i⟩ hpi j l t ht e
      simp at hpi
      rw [hrd p hpi.1 i hpi.2] at e
      rcases hxy with hs | ⟨rfl, rfl⟩
      · exact absurd e (hs _ (hltx l j hpi.1 hpi.2) _ ht)
      · have hp0 : p = 0 := by omega
        subst hp0
        rw [← Ptr.add_inj e]
        have := hown (p := 0) l j hpi.2
        simpa using this)
    (by
      rintro ⟨p, i⟩ hpi j l t ht e
      simp at hpi
      have := (htw p hpi.1 i hpi.2 j l).2.2
      simp only at e
      rw [e] at this
      exact absurd (mem_region ht) this)
    (by
      rintro ⟨p, i⟩ hpi j l
      simp at hpi
      rw [hrd p hpi.1 i hpi.2]
      exact hRx (mem_region (hltx l j hpi.1 hpi.2)))
    (by
      rintro ⟨p, i⟩ hpi j l
      simp at hpi
      exact (htw p hpi.1 i hpi.2 j l).2.1)
    hDy
  exact ⟨h', hg.loop par, h2, h3⟩

/-- DIF stage with stride 1, SIMD lanes along `p`, transposed stores. -/
theorem difB (par : Bool) (G : Nat → (Fin r → C) → Fin r → C)
    {rd : Nat → Fin r → Fin L → Ptr} {tw : Nat → Fin b → Fin L → Ptr}
    {wr : Nat → Fin r → Fin L → Ptr}
    {f : Nat → (Fin r → Fin L → C) → (Fin b → Fin L → C) → (Fin r → Fin L → C)}
    (tv : Nat → Fin b → Fin L → C)
    (hN : N = r * m) (hL : 0 < L) (hLm : L ∣ m)
    (hax : Arr h x N v) (hay : Alloc h y N) (hxy : Sep x N y N)
    (hrd : ∀ i < m / L, ∀ j l, rd i j l = x + (L * i + l.val + m * j.val))
    (hwr : ∀ i < m / L, ∀ k l, wr i k l = y + (r * (L * i) + (L * k.val + l.val)))
    (htw : ∀ i < m / L, ∀ j l, h (tw i j l).loc = some (some (tv i j l)) ∧
      (tw i j l).loc ∈ R ∧ (tw i j l).loc ∉ Region y N)
    (hf : ∀ i < m / L, ∀ xs (k : Fin r) (l : Fin L),
      f i xs (tv i) k l = G (L * i + (L * k.val + l.val) / r)
        (fun j => xs j (Fin.mk ((L * k.val + l.val) / r)
          (Nat.div_lt_of_lt_mul (by
            have := idx_lt l.isLt k.isLt
            rw [Nat.mul_comm r L]; omega))))
        (Fin.ofNat r (L * k.val + l.val)))
    (hRx : Region x N ⊆ R) (hDy : Region y N ⊆ D) :
    ∃ h', Good R D (Code.loop par (tasks1 (cnt m L) fun i =>
        bfly (rd i) (tw i) (wr i) (f i))) h h' ∧
      Arr h' y N (difPure r m 1 G v) ∧ ∀ l, l ∉ Region y N → h' l = h l := by
  have hr : 0 < r := Nat.pos_of_ne_zero (NeZero.ne r)
  rw [cnt_of_dvd hL hLm]
  have hp : ∀ {i : Nat} {l : Nat}, l < L → i < m / L → L * i + l < m := by
    intro i l hl hi
    have : L * (i + 1) ≤ L * (m / L) := Nat.mul_le_mul_left _ hi
    rw [Nat.mul_div_cancel' hLm] at this
    rw [Nat.mul_add] at *; omega
  have hu : ∀ (k : Fin r) (l : Fin L), L * k.val + l.val < r * L := by
    intro k l
    have := idx_lt l.isLt k.isLt
    rw [Nat.mul_comm r L]; omega
  have hu' : ∀ (k : Fin r) (l : Fin L), (L * k.val + l.val) / r < L := by
    intro k l; exact Nat.div_lt_of_lt_mul (hu k l)
  have hlt : ∀ {i : Nat} (l : Fin L) (k : Fin r), i < m / L →
      r * (L * i) + (L * k.val + l.val) < N := by
    intro i l k hi
    rw [hN]
    have h1 : L * (i + 1) ≤ m := by
      have : L * (i + 1) ≤ L * (m / L) := Nat.mul_le_mul_left _ hi
      rwa [Nat.mul_div_cancel' hLm] at this
    calc r * (L * i) + (L * k.val + l.val) < r * (L * i) + r * L := by have := hu k l; omega
      _ = r * (L * (i + 1)) := by ring
      _ ≤ r * m := Nat.mul_le_mul_left _ h1
  have hltx : ∀ {i : Nat} (l : Fin L) (j : Fin r), i < m / L →
      L * i + l.val + m * j.val < N := by
    intro i l j hi
    rw [hN, Nat.mul_comm r m]
    exact idx_lt (hp l.isLt hi) j.isLt
  have hat : ∀ (i : Nat) (l : Fin L) (k : Fin r),
      difPure r m 1 G v (r * (L * i) + (L * k.val + l.val)) =
        G (L * i + (L * k.val + l.val) / r)
          (fun j => v (L * i + (L * k.val + l.val) / r + m * j.val))
          (Fin.ofNat r (L * k.val + l.val)) := by
    intro i l k
    unfold difPure
    simp only [Nat.div_one, Nat.mod_one, Nat.zero_add, Nat.one_mul]
    rw [Nat.mul_add_div hr]
    congr 1
    apply Fin.ext
    simp [Fin.ofNat, Nat.mul_add_mod]
  obtain ⟨h', hg, h2, h3⟩ := phase_arr (R := R) (D := D)
    (is := List.range (m / L)) List.nodup_range
    (rd := rd) (tw := tw) (wr := wr) (f := f) (h := h)
    (fun i j l => v (L * i + l.val + m * j.val))
    tv y N (difPure r m 1 G v) (fun t => t / (r * L))
    (by
      intro i hi j l
      simp at hi
      rw [hrd i hi]
      exact hax _ (hltx l j hi))
    (by
      intro i hi j l
      simp at hi
      exact (htw i hi j l).1)
    (by
      intro i hi k l
      simp at hi
      refine ⟨_, hlt l k hi, hwr i hi k l, ?_, ?_⟩
      · rw [← Nat.mul_assoc, Nat.mul_add_div (Nat.mul_pos hr hL), Nat.div_eq_of_lt (hu k l)]
        rfl
      · rw [hf i hi, hat])
    (by
      intro t ht
      have h1 : t / (r * L) < m / L := by
        rw [← Nat.div_div_eq_div_mul]
        apply Nat.div_lt_of_lt_mul
        rw [Nat.mul_div_cancel' hLm]
        exact Nat.div_lt_of_lt_mul (hN ▸ ht)
      have h2 : t % (r * L) < r * L := Nat.mod_lt _ (Nat.mul_pos hr hL)
      refine ⟨by simpa using h1, ⟨t % (r * L) / L, Nat.div_lt_of_lt_mul (by
        rw [Nat.mul_comm L r]; exact h2)⟩, ⟨t % (r * L) % L, Nat.mod_lt _ hL⟩, ?_⟩
      rw [hwr _ h1]
      congr 1
      simp only
      rw [Nat.div_add_mod, ← Nat.mul_assoc, Nat.div_add_mod])
    hay
    (by
      intro i hi j l t ht e
      simp at hi
      rw [hrd i hi] at e
      exact absurd e (hxy _ (hltx l j hi) _ ht))
    (by
      intro i hi j l t ht e
      simp at hi
      have := (htw i hi j l).2.2
      rw [e] at this
      exact absurd (mem_region ht) this)
    (by
      intro i hi j l
      simp at hi
      rw [hrd i hi]
      exact hRx (mem_region (hltx l j hi)))
    (by
      intro i hi j l
      simp at hi
      exact (htw i hi j l).2.1)
    hDy
  exact ⟨h', hg.loop par, h2, h3⟩

/-- DIT stage, SIMD lanes along `q`: reads `y`, writes `x`. -/
theorem ditA (par : Bool) (G : Nat → (Fin r → C) → Fin r → C)
    {rd : Nat → Nat → Fin r → Fin L → Ptr} {tw : Nat → Nat → Fin b → Fin L → Ptr}
    {wr : Nat → Nat → Fin r → Fin L → Ptr}
    {f : Nat → Nat → (Fin r → Fin L → C) → (Fin b → Fin L → C) → (Fin r → Fin L → C)}
    (tv : Nat → Nat → Fin b → Fin L → C)
    (hN : N = s * (r * m)) (hL : 0 < L) (hLs : L ∣ s)
    (hay : Arr h y N v) (hax : Alloc h x N) (hxy : Sep y N x N)
    (hrd : ∀ p < m, ∀ i < s / L, ∀ j l, rd p i j l = y + (L * i + l.val + s * (r * p + j.val)))
    (hwr : ∀ p < m, ∀ i < s / L, ∀ k l, wr p i k l = x + (L * i + l.val + s * (p + m * k.val)))
    (htw : ∀ p < m, ∀ i < s / L, ∀ j l, h (tw p i j l).loc = some (some (tv p i j l)) ∧
      (tw p i j l).loc ∈ R ∧ (tw p i j l).loc ∉ Region x N)
    (hf : ∀ p < m, ∀ i < s / L, ∀ xs k l, f p i xs (tv p i) k l = G p (fun j => xs j l) k)
    (hRy : Region y N ⊆ R) (hDx : Region x N ⊆ D) :
    ∃ h', Good R D (Code.loop par (tasks2 m (cnt s L) fun p i =>
        bfly (rd p i) (tw p i) (wr p i) (f p i))) h h' ∧
      Arr h' x N (ditPure r m s G v) ∧ ∀ l, l ∉ Region x N → h' l = h l := by
  have hr : 0 < r := Nat.pos_of_ne_zero (NeZero.ne r)
  rw [cnt_of_dvd hL hLs, tasks2_eq]
  have hq : ∀ {i : Nat} (l : Fin L), i < s / L → L * i + l.val < s := by
    intro i l hi
    have : L * (i + 1) ≤ L * (s / L) := Nat.mul_le_mul_left _ hi
    rw [Nat.mul_div_cancel' hLs] at this
    have := l.isLt
    rw [Nat.mul_add] at *; omega
  have hown : ∀ {p i : Nat} (l : Fin L) (k : Fin r), p < m → i < s / L →
      (((L * i + l.val + s * (p + m * k.val)) / s % m,
        (L * i + l.val + s * (p + m * k.val)) % s / L) : Nat × Nat) = (p, i) := by
    intro p i l k hp hi
    rw [idx_div (hq l hi), idx_mod (hq l hi), idx_mod hp,
      Nat.mul_add_div hL, Nat.div_eq_of_lt l.isLt]
    simp
  have hltr : ∀ {p i : Nat} (l : Fin L) (k : Fin r), p < m → i < s / L →
      L * i + l.val + s * (r * p + k.val) < N := by
    intro p i l k hp hi
    rw [hN]
    apply idx_lt (hq l hi)
    have := idx_lt k.isLt hp
    omega
  have hltx : ∀ {p i : Nat} (l : Fin L) (j : Fin r), p < m → i < s / L →
      L * i + l.val + s * (p + m * j.val) < N := by
    intro p i l j hp hi
    rw [hN]
    apply idx_lt (hq l hi)
    have := idx_lt hp j.isLt
    rw [Nat.mul_comm r m]; omega
  obtain ⟨h', hg, h2, h3⟩ := phase_arr (R := R) (D := D)
    (is := List.range m ×ˢ List.range (s / L)) (nodup_prod_range _ _)
    (rd := fun pi => rd pi.1 pi.2) (tw := fun pi => tw pi.1 pi.2) (wr := fun pi => wr pi.1 pi.2)
    (f := fun pi => f pi.1 pi.2) (h := h)
    (fun pi j l => v (L * pi.2 + l.val + s * (r * pi.1 + j.val)))
    (fun pi => tv pi.1 pi.2) x N (ditPure r m s G v) (fun t => (t / s % m, t % s / L))
    (by
      rintro ⟨p, i⟩ hpi j l
      simp at hpi
      rw [hrd p hpi.1 i hpi.2]
      exact hay _ (hltr l j hpi.1 hpi.2))
    (by
      rintro ⟨p, i⟩ hpi j l
      simp at hpi
      exact (htw p hpi.1 i hpi.2 j l).1)
    (by
      rintro ⟨p, i⟩ hpi k l
      simp at hpi
      refine ⟨_, hltx l k hpi.1 hpi.2, hwr p hpi.1 i hpi.2 k l, hown l k hpi.1 hpi.2, ?_⟩
      rw [hf p hpi.1 i hpi.2, ditPure_at G v (hq l hpi.2) hpi.1])
    (by
      intro t ht
      have hs : 0 < s := by
        rcases Nat.eq_zero_or_pos s with h0 | h0
        · rw [hN, h0] at ht; simp at ht
        · exact h0
      have hm : 0 < m := by
        rcases Nat.eq_zero_or_pos m with h0 | h0
        · rw [hN, h0] at ht; simp at ht
        · exact h0
      have h1 : t / s < r * m := Nat.div_lt_of_lt_mul (hN ▸ ht)
      have h2 : t / s % m < m := Nat.mod_lt _ hm
      have h3 : t % s / L < s / L := by
        apply Nat.div_lt_of_lt_mul
        rw [Nat.mul_div_cancel' hLs]; exact Nat.mod_lt _ hs
      refine ⟨by simp [h2, h3], ⟨t / s / m, Nat.div_lt_of_lt_mul (by
        rw [Nat.mul_comm]; exact h1)⟩, ⟨t % s % L, Nat.mod_lt _ hL⟩, ?_⟩
      rw [hwr _ h2 _ h3]
      congr 1
      simp only
      rw [Nat.div_add_mod, Nat.mod_add_div, Nat.mod_add_div])
    hax
    (by
      rintro ⟨p, i⟩ hpi j l t ht e
      simp at hpi
      rw [hrd p hpi.1 i hpi.2] at e
      exact absurd e (hxy _ (hltr l j hpi.1 hpi.2) _ ht))
    (by
      rintro ⟨p, i⟩ hpi j l t ht e
      simp at hpi
      have := (htw p hpi.1 i hpi.2 j l).2.2
      simp only at e
      rw [e] at this
      exact absurd (mem_region ht) this)
    (by
      rintro ⟨p, i⟩ hpi j l
      simp at hpi
      rw [hrd p hpi.1 i hpi.2]
      exact hRy (mem_region (hltr l j hpi.1 hpi.2)))
    (by
      rintro ⟨p, i⟩ hpi j l
      simp at hpi
      exact (htw p hpi.1 i hpi.2 j l).2.1)
    hDx
  exact ⟨h', hg.loop par, h2, h3⟩

/-- DIT stage with stride 1, SIMD lanes along `p`, transposed loads: operand `j`, lane `l` is at
`y + r·L·i + L·j + l`. -/
theorem ditB (par : Bool) (G : Nat → (Fin r → C) → Fin r → C)
    {rd : Nat → Fin r → Fin L → Ptr} {tw : Nat → Fin b → Fin L → Ptr}
    {wr : Nat → Fin r → Fin L → Ptr}
    {f : Nat → (Fin r → Fin L → C) → (Fin b → Fin L → C) → (Fin r → Fin L → C)}
    (tv : Nat → Fin b → Fin L → C)
    (hN : N = r * m) (hL : 0 < L) (hLm : L ∣ m)
    (hay : Arr h y N v) (hax : Alloc h x N) (hxy : Sep y N x N)
    (hrd : ∀ i < m / L, ∀ j l, rd i j l = y + (r * (L * i) + (L * j.val + l.val)))
    (hwr : ∀ i < m / L, ∀ k l, wr i k l = x + (L * i + l.val + m * k.val))
    (htw : ∀ i < m / L, ∀ j l, h (tw i j l).loc = some (some (tv i j l)) ∧
      (tw i j l).loc ∈ R ∧ (tw i j l).loc ∉ Region x N)
    (hf : ∀ i < m / L, ∀ (g : Nat → C) k (l : Fin L),
      f i (fun j l => g (L * j.val + l.val)) (tv i) k l =
        G (L * i + l.val) (fun j => g (r * l.val + j.val)) k)
    (hRy : Region y N ⊆ R) (hDx : Region x N ⊆ D) :
    ∃ h', Good R D (Code.loop par (tasks1 (cnt m L) fun i =>
        bfly (rd i) (tw i) (wr i) (f i))) h h' ∧
      Arr h' x N (ditPure r m 1 G v) ∧ ∀ l, l ∉ Region x N → h' l = h l := by
  have hr : 0 < r := Nat.pos_of_ne_zero (NeZero.ne r)
  rw [cnt_of_dvd hL hLm]
  have hp : ∀ {i : Nat} {l : Nat}, l < L → i < m / L → L * i + l < m := by
    intro i l hl hi
    have : L * (i + 1) ≤ L * (m / L) := Nat.mul_le_mul_left _ hi
    rw [Nat.mul_div_cancel' hLm] at this
    rw [Nat.mul_add] at *; omega
  have hu : ∀ (k : Fin r) (l : Fin L), L * k.val + l.val < r * L := by
    intro k l
    have := idx_lt l.isLt k.isLt
    rw [Nat.mul_comm r L]; omega
  have hlt : ∀ {i : Nat} (l : Fin L) (k : Fin r), i < m / L →
      r * (L * i) + (L * k.val + l.val) < N := by
    intro i l k hi
    rw [hN]
    have h1 : L * (i + 1) ≤ m := by
      have : L * (i + 1) ≤ L * (m / L) := Nat.mul_le_mul_left _ hi
      rwa [Nat.mul_div_cancel' hLm] at this
    calc r * (L * i) + (L * k.val + l.val) < r * (L * i) + r * L := by have := hu k l; omega
      _ = r * (L * (i + 1)) := by ring
      _ ≤ r * m := Nat.mul_le_mul_left _ h1
  have hltx : ∀ {i : Nat} (l : Fin L) (j : Fin r), i < m / L →
      L * i + l.val + m * j.val < N := by
    intro i l j hi
    rw [hN, Nat.mul_comm r m]
    exact idx_lt (hp l.isLt hi) j.isLt
  obtain ⟨h', hg, h2, h3⟩ := phase_arr (R := R) (D := D)
    (is := List.range (m / L)) List.nodup_range
    (rd := rd) (tw := tw) (wr := wr) (f := f) (h := h)
    (fun i j l => v (r * (L * i) + (L * j.val + l.val)))
    tv x N (ditPure r m 1 G v) (fun t => t % m / L)
    (by
      intro i hi j l
      simp at hi
      rw [hrd i hi]
      exact hay _ (hlt l j hi))
    (by
      intro i hi j l
      simp at hi
      exact (htw i hi j l).1)
    (by
      intro i hi k l
      simp at hi
      refine ⟨_, hltx l k hi, hwr i hi k l, ?_, ?_⟩
      · rw [idx_mod (hp l.isLt hi), Nat.mul_add_div hL, Nat.div_eq_of_lt l.isLt, Nat.add_zero]
      · rw [hf i hi (fun n => v (r * (L * i) + n))]
        have := ditPure_at (s := 1) (q := 0) G v (by omega) (hp l.isLt hi) k
        simp only [Nat.zero_add, Nat.one_mul] at this
        rw [this]
        congr 1
        funext j
        congr 1
        ring)
    (by
      intro t ht
      have hm : 0 < m := by
        rcases Nat.eq_zero_or_pos m with h0 | h0
        · rw [hN, h0] at ht; simp at ht
        · exact h0
      have h1 : t % m / L < m / L := by
        apply Nat.div_lt_of_lt_mul
        rw [Nat.mul_div_cancel' hLm]; exact Nat.mod_lt _ hm
      refine ⟨by simpa using h1, ⟨t / m, Nat.div_lt_of_lt_mul (by
        rw [Nat.mul_comm, ← hN]; exact ht)⟩, ⟨t % m % L, Nat.mod_lt _ hL⟩, ?_⟩
      rw [hwr _ h1]
      congr 1
      simp only
      rw [Nat.div_add_mod, Nat.mod_add_div])
    hax
    (by
      intro i hi j l t ht e
      simp at hi
      rw [hrd i hi] at e
      exact absurd e (hxy _ (hlt l j hi) _ ht))
    (by
      intro i hi j l t ht e
      simp at hi
      have := (htw i hi j l).2.2
      rw [e] at this
      exact absurd (mem_region ht) this)
    (by
      intro i hi j l
      simp at hi
      rw [hrd i hi]
      exact hRy (mem_region (hlt l j hi)))
    (by
      intro i hi j l
      simp at hi
      exact (htw i hi j l).2.1)
    hDx
  exact ⟨h', hg.loop par, h2, h3⟩

end stages

end OTFFT
