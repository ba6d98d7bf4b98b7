/-
C99: transforms of all rows of a matrix, and two-dimensional transforms by rows and columns.
-/
import Verif.Props.RealExact
import Verif.Spec.Plane

namespace OTFFT

variable {F C : Type} [DArith F] [CArith F C] [Inhabited C]

omit [Inhabited C] in
/-- one object transforms the `m` rows of `n` elements of an array, each as if it were alone -/
theorem ClsSpec.rows {X : Cls C} (S : ClsSpec X) {w : World C} {n m : Nat} {x : Ptr} {v : Nat → C} (wf : w.WF) (hok : S.SetupOK n)
    (hn : 0 < n) (hm : 0 < m) (hx : Arr w.heap x (m * n) v) (call : Nat → X.Call) (out : Nat → (Nat → C) → Nat → C)
    (hstep : ∀ r < m, ∀ o w' u, Owned w.live (S.blocks o) w' → S.Ready o n w'.heap → Arr w'.heap (x + r * n) n u →
      (Act.exec (X.call o (call r))).wp (fun _ w2 => Owned w.live (S.blocks o) w2 ∧ S.Ready o n w2.heap ∧
        Arr w2.heap (x + r * n) n (out r u) ∧ ∀ l : Loc, l.1 ∈ w.live → l ∉ Region (x + r * n) n → w2.heap l = w'.heap l) w')
    (hnf : (X.lifetime n (((List.range m).map call).map .call)).NoFail (fun ok => ok = true)) :
    ComputesIn X n ((List.range m).map call) w ∅ x (m * n) (fun t => out (t / n) (fun j => v (t / n * n + j)) (t % n)) := by
  have hxl : x.buf ∈ w.live := wf.buf_live (Nat.mul_pos hm hn) hx.alloc
  have row : ∀ {i t}, i < m → t < n → i * n + t < m * n ∧ (i * n + t) / n = i ∧ (i * n + t) % n = t := by
    intro i t hi ht
    have h1 : (i + 1) * n ≤ m * n := Nat.mul_le_mul_right n hi
    rw [Nat.add_mul, one_mul] at h1
    refine ⟨by omega, ?_, ?_⟩
    · rw [mul_comm, Nat.mul_add_div (by omega), Nat.div_eq_of_lt ht, add_zero]
    · rw [mul_comm, Nat.mul_add_mod, Nat.mod_eq_of_lt ht]
  refine S.computesIn
    (fun i h => (∀ t < m * n, h (x + t).loc = some (some (if t / n < i then out (t / n) (fun j => v (t / n * n + j)) (t % n) else v t))) ∧
      ∀ l : Loc, l.1 ∈ w.live → l ∉ Region x (m * n) → h l = w.heap l)
    hok wf ⟨fun t ht => by rw [if_neg (Nat.not_lt_zero _)]; exact hx t ht, fun _ _ _ => rfl⟩ ?_ ?_ ?_ hnf
  · rintro i h h' s ⟨a, b⟩
    exact ⟨fun t ht => by rw [s.ptr hxl]; exact a t ht, fun l h1 h2 => (s l h1).trans (b l h1 h2)⟩
  · rintro i c hc o w' ow hr ⟨a, b⟩
    rw [List.getElem?_map] at hc
    obtain ⟨r, he, rfl⟩ := Option.map_eq_some_iff.1 hc
    obtain ⟨hi, he⟩ := List.getElem?_eq_some_iff.1 he
    rw [List.length_range] at hi
    rw [List.getElem_range] at he
    subst he
    have ha : Arr w'.heap (x + i * n) n (fun j => v (i * n + j)) := fun t ht => by
      obtain ⟨r1, r2, r3⟩ := row hi ht
      have := a _ r1
      rw [r2, if_neg (lt_irrefl i)] at this
      rw [Ptr.add_add]; exact this
    refine Act.wp_mono (hstep i hi o w' _ ow hr ha) ?_
    rintro _ w2 ⟨h1, h4, h2, h3⟩
    refine ⟨h1, h4, fun t ht => ?_, fun l hl1 hl2 => (h3 l hl1 ?_).trans (b l hl1 hl2)⟩
    · have hq : t / n < m := Nat.div_lt_of_lt_mul (by rwa [mul_comm])
      have hs : t / n * n + t % n = t := Nat.div_add_mod' t n
      by_cases h : t / n = i
      · have := h2 (t % n) (Nat.mod_lt _ hn)
        rw [Ptr.add_add, ← h, hs] at this
        rw [if_pos (by omega)]; exact this
      · rw [h3 _ hxl ?_, a t ht]
        · by_cases h' : t / n < i
          · rw [if_pos h', if_pos (by omega)]
          · rw [if_neg h', if_neg (by omega)]
        · rintro ⟨j, hj, hl⟩
          rw [Ptr.add_add] at hl
          have := congrArg Prod.snd hl
          simp only [Ptr.loc_add] at this
          have ht' : t = i * n + j := by omega
          exact h (by rw [ht']; exact (row hi hj).2.1)
    · rintro ⟨j, hj, rfl⟩
      exact hl2 ⟨i * n + j, (row hi hj).1, by rw [Ptr.add_add]⟩
  · rintro h ⟨a, b⟩
    refine ⟨fun t ht => ?_, fun l h1 h2 => b l h1 fun h => h2 (Or.inl h)⟩
    have hq : t / n < m := Nat.div_lt_of_lt_mul (by rwa [mul_comm])
    have := a t ht
    rw [List.length_map, List.length_range, if_pos hq] at this
    exact this

end OTFFT

namespace OTFFT.Props
open OTFFT Finset

variable {F C : Type} [DArith F] [CArith F C] [Inhabited C] {n m : ℕ}

/-- C99: one ComplexFFT object called once for each row of a matrix: what it makes of a row does not depend on where the row is, nor
on the other rows; `f` is what it makes of a vector. -/
theorem C99_rows_complex (thr : Thr) (hn : ValidLen n) : ∃ f : Entry → (ℕ → C) → ℕ → C,
    (∀ (w : World C) x u e, UserArray w x n u → Computes (complexFFT C thr) n [(e, x)] w x n (f e u)) ∧
    ∀ (m : ℕ) (w : World C) x v (e : ℕ → Entry), 0 < m → UserArray w x (m * n) v →
      Computes (complexFFT C thr) n ((List.range m).map fun r => (e r, x + r * n)) w x (m * n)
        fun t => f (e (t / n)) (fun j => v (t / n * n + j)) (t % n) := by
  have h2 := hn.two
  refine ⟨fun e u => fftOut C thr e.isInv e.mode n u, fun w x u e hx =>
    ⟨FFT.calls (es := [e]) hn hx, FFT.lifetime_noFail _ (by omega) _ (lenNat_calls _)⟩, fun m w x v e hm hx => ?_⟩
  have hxl : x.buf ∈ w.live := hx.wf.buf_live (Nat.mul_pos hm (by omega)) hx.arr.alloc
  refine ComputesIn.toComputes ((complexFFTSpec C thr).rows hx.wf hn.intLen (by omega) hm hx.arr _
    (fun r u => fftOut C thr (e r).isInv (e r).mode n u) ?_ (FFT.lifetime_noFail _ (by omega) _ (lenNat_calls _)))
    (Set.empty_subset _) fun _ _ => rfl
  intro r hr o w' u ow rd ha
  have ow' : Owned w.live (FFT.blocks o ++ []) w' := by rw [List.append_nil]; exact ow
  refine Act.wp_mono (FFT.call_spec hn ow' rd ha (fun h => ow.disj _ h hxl)) ?_
  rintro _ w2 ⟨h1, h2, h3, h4⟩
  rw [List.append_nil] at h1
  exact ⟨h1, h4, h2, fun l hl hl2 => h3 l (fun h => ow.disj _ h hl) hl2⟩

/-- C99: the same for Bluestein's transform. -/
theorem C99_rows_bluestein (thr : Thr) (hn : 1 ≤ n) (h29 : n ≤ 2 ^ 29) : ∃ f : Entry → (ℕ → C) → ℕ → C,
    (∀ (w : World C) x u e, UserArray w x n u → Computes (bluesteinFFT C thr) n [(e, x)] w x n (f e u)) ∧
    ∀ (m : ℕ) (w : World C) x v (e : ℕ → Entry), 0 < m → UserArray w x (m * n) v →
      Computes (bluesteinFFT C thr) n ((List.range m).map fun r => (e r, x + r * n)) w x (m * n)
        fun t => f (e (t / n)) (fun j => v (t / n * n + j)) (t % n) := by
  refine ⟨fun e u => blueOutF C thr e n u, fun w x u e hx =>
    ComputesIn.toComputes (Bluestein.computes (thr := thr) hx.wf hn h29 hx.arr [e]) (Set.empty_subset _) fun _ _ => rfl,
    fun m w x v e hm hx => ?_⟩
  have hxl : x.buf ∈ w.live := hx.wf.buf_live (Nat.mul_pos hm (by omega)) hx.arr.alloc
  refine ComputesIn.toComputes ((bluesteinSpec C thr).rows hx.wf ?_ (by omega) hm hx.arr _
    (fun r u => blueOutF C thr (e r) n u) ?_ (Bluestein.lifetime_noFail _ (by omega) _ (lenNat_calls _)))
    (Set.empty_subset _) fun _ _ => rfl
  · show _ ≤ _
    omega
  intro r hr o w' u ow rd ha
  refine Act.wp_mono (Bluestein.call_spec hn h29 ow (rd hn) ha (fun h => ow.disj _ h hxl)) ?_
  rintro _ w2 ⟨h1, h2, h3, h4, _⟩
  exact ⟨h1, fun _ => h4, h2, fun l hl hl2 => h3 l (fun h => ow.disj _ h hl) hl2⟩

/-- C99: the same for the cosine transform. -/
theorem C99_rows_dct (thr : Thr) (hn : RealLen n) (h30 : n < 2 ^ 30) : ∃ f : DctEntry → (ℕ → C) → ℕ → C,
    (∀ (w : World C) x u e, UserArray w x n u → Computes (realDCT C thr) n [(e, x)] w x n (f e u)) ∧
    ∀ (m : ℕ) (w : World C) x v (e : ℕ → DctEntry), 0 < m → UserArray w x (m * n) v →
      Computes (realDCT C thr) n ((List.range m).map fun r => (e r, x + r * n)) w x (m * n)
        fun t => f (e (t / n)) (fun j => v (t / n * n + j)) (t % n) := by
  have hp := hn.pos
  refine ⟨fun e u => dctOut C thr e n u, fun w x u e hx =>
    ComputesIn.toComputes (DCT.computes (thr := thr) hx.wf hn h30 hx.arr [e]) (Set.empty_subset _) fun _ _ => rfl,
    fun m w x v e hm hx => ?_⟩
  have hxl : x.buf ∈ w.live := hx.wf.buf_live (Nat.mul_pos hm (by omega)) hx.arr.alloc
  refine ComputesIn.toComputes ((realDCTSpec C thr).rows hx.wf ⟨by omega, by omega⟩ (by omega) hm hx.arr _
    (fun r u => dctOut C thr (e r) n u) ?_ (DCT.lifetime_noFail _ (by omega) _ (lenNat_calls _)))
    (Set.empty_subset _) fun _ _ => rfl
  intro r hr o w' u ow rd ha
  refine Act.wp_mono (DCT.call_spec hn ow rd ha (fun h => ow.disj _ h hxl)) ?_
  rintro _ w2 ⟨h1, h2, h3, h4, _⟩
  exact ⟨h1, h4, h2, fun l hl hl2 => h3 l (fun h => ow.disj _ h hl) hl2⟩

/-! ### two dimensions -/

/-- accurate transforms of the rows and of the columns make a two-dimensional transform -/
theorem plane_of (hn : 0 < n) (hm : 0 < m) (hn31 : n ≤ 2 ^ 31) (hm31 : m ≤ 2 ^ 31) {Gn Gm : Entry → (ℕ → ℂ) → (ℕ → ℂ) → Prop}
    {tolN tolM : ℝ} (hN : ∀ e u U, Gn e u U → ∀ k < n, ‖U k - e.exact n u k‖ ≤ e.factor n * n * tolN)
    (hM : ∀ e u U, Gm e u U → ∀ k < m, ‖U k - e.exact m u k‖ ≤ e.factor m * m * tolM) : PlaneBy m n Gn Gm tolN tolM := by
  have sums : ∀ (e : Entry) (q : ℕ) (v : ℕ → ℂ) (k : ℕ), e.exact q v k =
      e.factor q * ∑ j ∈ range q, v j * turn q (e.sign * (j * k)) := by
    intro e q v k
    rw [exact_eq, scC_factor, xdft_sum]
    exact congrArg _ (sum_congr rfl fun j _ => by rw [om_turn])
  have two : ∀ {a : ℕ} (_ : 0 < a) (_ : a ≤ 2 ^ 31) (e : Entry) (V z U : ℕ → ℂ) (k : ℕ) {s t : ℝ}, ‖V k - e.exact a z k‖ ≤ s →
      (∀ j < a, ‖z j - U j‖ ≤ t) → ‖V k - e.exact a U k‖ ≤ s + e.factor a * (a * t) := by
    intro a ha ha31 e V z U k s t h1 h2
    have h3 := exact_norm ha ha31 e h2 k
    rw [← exact_sub] at h3
    calc _ = ‖(V k - e.exact a z k) + (e.exact a z k - e.exact a U k)‖ := by rw [sub_add_sub_cancel]
      _ ≤ _ := norm_add_le _ _
      _ ≤ _ := add_le_add h1 h3
  refine ⟨?_, ?_⟩
  · intro e u R Z h1 h2 k hk l hl
    have h := two hm hm31 e (fun k => Z k l) (fun r => R r l) (fun r => e.exact n (u r) l) k (hM e _ _ (h2 l hl) k hk)
      (fun r hr => hN e _ _ (h1 r hr) l hl)
    have hx : e.exact m (fun r => e.exact n (u r) l) k = e.plane m n u k l := by
      simp only [sums]
      unfold Entry.plane
      rw [mul_assoc, mul_sum (range m) _ (e.factor n : ℂ)]
      congr 1
      refine sum_congr rfl fun r _ => ?_
      rw [mul_assoc, sum_mul]
      congr 1
      exact sum_congr rfl fun c _ => by ring
    rw [hx] at h
    exact le_trans h (le_of_eq (by ring))
  · intro e u R Z h1 h2 k hk l hl
    have h := two hn hn31 e (Z k) (R k) (fun c => e.exact m (fun r => u r c) k) l (hN e _ _ (h2 k hk) l hl)
      (fun c hc => hM e _ _ (h1 c hc) k hk)
    have hx : e.exact n (fun c => e.exact m (fun r => u r c) k) l = e.plane m n u k l := by
      simp only [sums]
      unfold Entry.plane
      rw [mul_comm (e.factor m : ℂ), mul_assoc, sum_comm, mul_sum (range n) _ (e.factor m : ℂ)]
      congr 1
      refine sum_congr rfl fun c _ => ?_
      rw [mul_assoc, sum_mul]
    rw [hx] at h
    exact le_trans h (le_of_eq (by ring))

theorem complex_takes_exact {n : ℕ} (thr : Thr) (hn : ValidLen n) (e : Entry) (u U : ℕ → ℂ)
    (h : ∀ w x, UserArray w x n u → Computes (complexFFT ℂ thr) n [(e, x)] w x n U) :
    ∀ k < n, ‖U k - e.exact n u k‖ ≤ e.factor n * n * 0 := by
  intro k hk
  have ok := oneArray_ok n u
  have h2 := hn.two
  rw [exact_eq, Computes_unique (r' := fun k => scC n e.mode * xdft e.isInv n u k) (by simp [oneArray]) (h _ _ ok)
    (computes_out hn ok [e] _ fun t ht => fftOut_C h2 u ht) k hk, sub_self, norm_zero, mul_zero]

/-- C99: ComplexFFT of length `n` for the rows and of length `m` for the columns, in exact arithmetic. -/
theorem C99_plane_exact (thr thr' : Thr) (hn : ValidLen n) (hm : ValidLen m) :
    PlaneBy m n (fun e u U => ∀ w x, UserArray w x n u → Computes (complexFFT ℂ thr) n [(e, x)] w x n U)
      (fun e u U => ∀ w x, UserArray w x m u → Computes (complexFFT ℂ thr') m [(e, x)] w x m U) 0 0 := by
  have hn2 := hn.two
  have hm2 := hm.two
  exact plane_of (by omega) (by omega) hn.int.le hm.int.le (complex_takes_exact thr hn) (complex_takes_exact thr' hm)

section floats
variable {F : Type} [FArith F] [Inhabited F] {val : F → ℝ} {fin : F → Prop} {M M' : ℝ}

/-- C99: the same in double precision: rows of elements of magnitude at most `M`, columns of elements of magnitude at most `M'`. -/
theorem C99_plane (hF : Binary64 F val fin) (i i' : Target) (thr thr' : Thr) (hn : ValidLen n) (hm : ValidLen m)
    (h0 : 1 / 2 ^ 970 ≤ M) (hM : n * M ≤ 2 ^ 1019) (h0' : 1 / 2 ^ 970 ≤ M') (hM' : m * M' ≤ 2 ^ 1019) :
    PlaneBy m n (letI := i.arith F; RunsTo val fin M (complexFFT (Xmm F) thr) (fun e x => (e, x)) n)
      (letI := i'.arith F; RunsTo val fin M' (complexFFT (Xmm F) thr') (fun e x => (e, x)) m)
      (errWeight n / 2 ^ 52 * M) (errWeight m / 2 ^ 52 * M') := by
  have hn2 := hn.two
  have hm2 := hm.two
  exact plane_of (by omega) (by omega) hn.int.le hm.int.le (complex_err hF i thr hn h0 hM) (complex_err hF i' thr' hm h0' hM')

/-- C99: the same with Bluestein's transform, for any numbers of rows and columns up to `2^29`. -/
theorem C99_plane_bluestein (hF : Binary64 F val fin) (i i' : Target) (thr thr' : Thr) (hn1 : 1 ≤ n) (hn29 : n ≤ 2 ^ 29)
    (hm1 : 1 ≤ m) (hm29 : m ≤ 2 ^ 29) (h0 : 1 / 2 ^ 970 ≤ M) (hM : n * (n * (n * M)) ≤ 2 ^ 1013)
    (h0' : 1 / 2 ^ 970 ≤ M') (hM' : m * (m * (m * M')) ≤ 2 ^ 1013) :
    PlaneBy m n (letI := i.arith F; RunsTo val fin M (bluesteinFFT (Xmm F) thr) (fun e x => (e, x)) n)
      (letI := i'.arith F; RunsTo val fin M' (bluesteinFFT (Xmm F) thr') (fun e x => (e, x)) m)
      ((150 * Nat.clog 2 n + 207) / 2 ^ 52 * (16 * (n * M))) ((150 * Nat.clog 2 m + 207) / 2 ^ 52 * (16 * (m * M'))) :=
  plane_of hn1 hm1 (le_trans hn29 (by norm_num)) (le_trans hm29 (by norm_num)) (bluestein_err hF i thr hn1 hn29 h0 hM)
    (bluestein_err hF i' thr' hm1 hm29 h0' hM')

end floats

/-- C99: Bluestein's transform for rows and columns, in exact arithmetic. -/
theorem C99_plane_bluestein_exact (thr thr' : Thr) (hn1 : 1 ≤ n) (hn29 : n ≤ 2 ^ 29) (hm1 : 1 ≤ m) (hm29 : m ≤ 2 ^ 29) :
    PlaneBy m n (fun e u U => ∀ w x, UserArray w x n u → Computes (bluesteinFFT ℂ thr) n [(e, x)] w x n U)
      (fun e u U => ∀ w x, UserArray w x m u → Computes (bluesteinFFT ℂ thr') m [(e, x)] w x m U) 0 0 := by
  have key : ∀ {l : ℕ} (thr : Thr), 1 ≤ l → l ≤ 2 ^ 29 → ∀ e u U,
      (∀ w x, UserArray w x l u → Computes (bluesteinFFT ℂ thr) l [(e, x)] w x l U) →
      ∀ k < l, ‖U k - e.exact l u k‖ ≤ e.factor l * l * 0 := by
    intro l thr h1 h29 e u U h k hk
    have ok := oneArray_ok l u
    rw [exact_eq, Computes_unique (r' := fun k => scC l e.mode * xdft e.isInv l u k) (by simp [oneArray]) (h _ _ ok)
      (blue_one thr h1 h29 ok e) k hk, sub_self, norm_zero, mul_zero]
  exact plane_of hn1 hm1 (le_trans hn29 (by norm_num)) (le_trans hm29 (by norm_num)) (key thr hn1 hn29) (key thr' hm1 hm29)

/-- 3 rows of 4 numbers, then 4 columns of 3 numbers: element (1, 2) is the two-dimensional transform -/
example (thr : Thr) (u : ℕ → ℕ → ℂ) : ∃ Z : ℕ → ℕ → ℂ, ∃ R : ℕ → ℕ → ℂ,
    (∀ r < 3, ∀ w x, UserArray w x 4 (u r) → Computes (complexFFT ℂ thr) 4 [(.fwd0, x)] w x 4 (R r)) ∧
    (∀ l < 4, ∀ w x, UserArray w x 3 (fun r => R r l) → Computes (complexFFT ℂ thr) 3 [(.fwd0, x)] w x 3 fun k => Z k l) ∧
    Z 1 2 = ∑ r ∈ range 3, ∑ c ∈ range 4, u r c * turn 3 (-(r * 1)) * turn 4 (-(c * 2)) := by
  have h4 : ValidLen 4 := validLen_of_le (by norm_num) (by norm_num)
  have h3 : ValidLen 3 := validLen_of_le (by norm_num) (by norm_num)
  have one : ∀ {n} (_ : ValidLen n) (u : ℕ → ℂ) w x, UserArray w x n u → Computes (complexFFT ℂ thr) n [(.fwd0, x)] w x n (Spec.dft n u) :=
    fun h u w x hx => C01_fwd0 thr h hx
  refine ⟨fun k l => Spec.dft 3 (fun r => Spec.dft 4 (u r) l) k, fun r => Spec.dft 4 (u r), fun r _ => one h4 _, fun l _ => one h3 _, ?_⟩
  have h := (C99_plane_exact thr thr h4 h3).rows .fwd0 u (fun r => Spec.dft 4 (u r)) (fun k l => Spec.dft 3 (fun r => Spec.dft 4 (u r) l) k)
    (fun r _ => one h4 _) (fun l _ => one h3 _) 1 (by norm_num) 2 (by norm_num)
  simp only [mul_zero, add_zero] at h
  have h := sub_eq_zero.1 (norm_le_zero_iff.1 h)
  refine h.trans ?_
  simp [Entry.plane, Entry.factor, Entry.sign]

/-- 7 rows of 5 complex numbers in one array, transformed by one object, the first row forward and the others inverse -/
example (thr : Thr) (v : ℕ → ℂ) : ∃ f : Entry → (ℕ → ℂ) → ℕ → ℂ,
    Computes (complexFFT ℂ thr) 5 ((List.range 7).map fun r => (if r = 0 then .fwd else .inv, Ptr.base 1 + r * 5))
      (oneArray 35 v) (Ptr.base 1) 35 fun t => f (if t / 5 = 0 then .fwd else .inv) (fun j => v (t / 5 * 5 + j)) (t % 5) := by
  obtain ⟨f, -, h⟩ := C99_rows_complex (C := ℂ) thr (validLen_of_le (n := 5) (by norm_num) (by norm_num))
  exact ⟨f, h 7 _ _ v (fun r => if r = 0 then .fwd else .inv) (by norm_num) (oneArray_ok 35 v)⟩

end OTFFT.Props
