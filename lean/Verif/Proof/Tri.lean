/-
The triangular index of the six-step twiddle table.
-/
import Verif.Model.SixStep
import Mathlib.Tactic.Ring
import Mathlib.Tactic.Linarith

namespace OTFFT

/-- first index of row `u` -/
def triBase (m : Nat) : Nat → Nat
  | 0 => 0
  | u+1 => triBase m u + (m - u)

theorem triBase_eq (m : Nat) : ∀ u ≤ m, 2 * triBase m u + u * (u + 1) = 2 * (u * m) + 2 * u := by
  intro u
  induction u with
  | zero => intro _; simp [triBase]
  | succ u ih =>
    intro hu
    have := ih (by omega)
    obtain ⟨d, rfl⟩ : ∃ d, m = u + d := ⟨m - u, by omega⟩
    simp only [triBase, Nat.add_sub_cancel_left]
    nlinarith

theorem two_dvd_succ (u : Nat) : u * (u + 1) / 2 * 2 = u * (u + 1) := by
  apply Nat.div_mul_cancel
  exact (Nat.even_mul_succ_self u).two_dvd

theorem sixIdx_eq {m u v : Nat} (huv : u ≤ v) (hv : v < m) : sixIdx m u v = triBase m u + (v - u) := by
  have h1 := triBase_eq m u (by omega)
  have h2 := two_dvd_succ u
  unfold sixIdx
  omega

theorem triBase_full (n : Nat) : triBase (n / 2) (n / 2) = sixL n := by
  have h1 := triBase_eq (n/2) (n/2) (le_refl _)
  have h2 := two_dvd_succ (n/2)
  unfold sixL
  have : n / 2 * (n / 2 + 1) = n/2 * (n/2) + n/2 := by ring
  omega

theorem triBase_mono {m u v : Nat} (h : u ≤ v) : triBase m u ≤ triBase m v := by
  induction h with
  | refl => exact le_refl _
  | step _ ih => exact ih.trans (Nat.le_add_right _ _)

theorem sixIdx_inj {m u v u' v' : Nat} (huv : u ≤ v) (hv : v < m) (huv' : u' ≤ v') (hv' : v' < m)
    (e : sixIdx m u v = sixIdx m u' v') : u = u' ∧ v = v' := by
  rw [sixIdx_eq huv hv, sixIdx_eq huv' hv'] at e
  have key : ∀ {a b : Nat}, a < b → triBase m a + (m - a) ≤ triBase m b :=
    fun {a b} h => triBase_mono (m := m) (u := a + 1) h
  have : u = u' := by
    by_contra hne
    rcases Nat.lt_or_gt_of_ne hne with h | h
    · have := key h; omega
    · have := key h; omega
  subst this
  omega

theorem sixIdx_lt {n u v : Nat} (huv : u ≤ v) (hv : v < n / 2) : sixIdx (n / 2) u v < sixL n := by
  rw [sixIdx_eq huv hv, ← triBase_full]
  have := triBase_mono (m := n / 2) (u := u + 1) (v := n / 2) (by omega)
  simp only [triBase] at this
  omega

theorem triBase_find {m : Nat} : ∀ k ≤ m, ∀ i < triBase m k, ∃ u < k, triBase m u ≤ i ∧
    i < triBase m u + (m - u) := by
  intro k
  induction k with
  | zero => intro _ i hi; simp [triBase] at hi
  | succ k ih =>
    intro hk i hi
    by_cases h : i < triBase m k
    · obtain ⟨u, hu, h'⟩ := ih (by omega) i h
      exact ⟨u, by omega, h'⟩
    · exact ⟨k, by omega, by omega, hi⟩

theorem sixIdx_surj {n i : Nat} (hi : i < sixL n) :
    ∃ u v, u ≤ v ∧ v < n / 2 ∧ i = sixIdx (n / 2) u v := by
  rw [← triBase_full] at hi
  obtain ⟨u, hu, h1, h2⟩ := triBase_find _ (le_refl _) i hi
  refine ⟨u, u + (i - triBase (n/2) u), by omega, by omega, ?_⟩
  rw [sixIdx_eq (by omega) (by omega)]; omega

/-! ### the table that `init_Wnxn` builds -/

theorem ivSet_same {m u v : Nat} (iv) (hu : 2 * u < 32768) (hv : 2 * v < 32768) :
    ivSet m iv u v (sixIdx m u v) = some (2 * u, 2 * v) := by
  simp [ivSet, toShort, hu, hv]

theorem ivSet_ne {m u v i : Nat} (iv) (h : i ≠ sixIdx m u v) : ivSet m iv u v i = iv i := by
  simp [ivSet, h]

theorem ivRow (m u : Nat) (hm : 2 * m ≤ 32768) (hu : u < m) : ∀ k ≤ m - u, ∀ iv : Nat → Option (Nat × Nat),
    let iv' := (List.range k).foldl (fun iv j => ivSet m iv u (u + j)) iv
    (∀ v, u ≤ v → v < u + k → iv' (sixIdx m u v) = some (2 * u, 2 * v)) ∧
    ∀ i, (∀ v, u ≤ v → v < u + k → i ≠ sixIdx m u v) → iv' i = iv i := by
  intro k
  induction k with
  | zero => intro _ iv; exact ⟨fun v h1 h2 => by omega, fun i _ => rfl⟩
  | succ k ih =>
    intro hk iv
    simp only [List.range_succ, List.foldl_append, List.foldl_cons, List.foldl_nil]
    obtain ⟨h1, h2⟩ := ih (by omega) iv
    refine ⟨fun v hv hv' => ?_, fun i hi => ?_⟩
    · by_cases e : v = u + k
      · subst e; exact ivSet_same _ (by omega) (by omega)
      · rw [ivSet_ne _ (fun e' => e (sixIdx_inj hv (by omega) (by omega) (by omega) e').2)]
        exact h1 v hv (by omega)
    · rw [ivSet_ne _ (hi _ (by omega) (by omega))]
      exact h2 i fun v hv hv' => hi v hv (by omega)

theorem ivAll (m : Nat) (hm : 2 * m ≤ 32768) : ∀ k ≤ m, ∀ iv : Nat → Option (Nat × Nat),
    let iv' := (List.range k).foldl (fun iv u =>
      (List.range (m - u)).foldl (fun iv j => ivSet m iv u (u + j)) iv) iv
    ∀ u v, u ≤ v → v < m → u < k → iv' (sixIdx m u v) = some (2 * u, 2 * v) := by
  intro k
  induction k with
  | zero => intro _ iv iv' u v h1 h2 h3; omega
  | succ k ih =>
    intro hk iv
    simp only [List.range_succ, List.foldl_append, List.foldl_cons, List.foldl_nil]
    intro u v huv hv hu
    obtain ⟨h1, h2⟩ := ivRow m k hm (by omega) (m - k) (le_refl _) ((List.range k).foldl (fun iv u =>
      (List.range (m - u)).foldl (fun iv j => ivSet m iv u (u + j)) iv) iv)
    by_cases e : u = k
    · subst e; exact h1 v huv (by omega)
    · rw [h2 _ fun v' hv1 hv2 e' => e (sixIdx_inj huv hv hv1 (by omega) e').1]
      exact ih (by omega) iv u v huv hv (by omega)

theorem ivBuild_at {n u v : Nat} (hn : n ≤ 32768) (huv : u ≤ v) (hv : v < n / 2) :
    ivBuild n (sixIdx (n / 2) u v) = some (2 * u, 2 * v) :=
  ivAll (n / 2) (by omega) (n / 2) (le_refl _) _ u v huv hv (by omega)

theorem foldl_inv {α β : Type} (P : β → Prop) (f : β → α → β) : ∀ (l : List α) (b : β), P b →
    (∀ b, ∀ a ∈ l, P b → P (f b a)) → P (l.foldl f b) := by
  intro l
  induction l with
  | nil => intro b h _; exact h
  | cons a l ih =>
    intro b h hf
    exact ih _ (hf b a (by simp) h) fun b a ha => hf b a (by simp [ha])

/-- nothing is written behind the end -/
theorem ivBuild_out {n i : Nat} (hi : sixL n ≤ i) : ivBuild n i = none := by
  unfold ivBuild
  refine foldl_inv (fun iv : Nat → Option (Nat × Nat) => iv i = none) _ _ _ rfl fun iv u hu h => ?_
  refine foldl_inv (fun iv : Nat → Option (Nat × Nat) => iv i = none) _ _ _ h fun iv j hj h => ?_
  rw [List.mem_range] at hu hj
  rw [ivSet_ne _ (by have := sixIdx_lt (n := n) (u := u) (v := u + j) (by omega) (by omega); omega)]
  exact h

end OTFFT
