/-
Layer 1 for the recursive mixed-radix transform.
-/
import Verif.Proof.MixedMem

namespace OTFFT

set_option linter.unusedSectionVars false

variable {F C : Type} [DArith F] [CArith F C]

instance minFac_neZero (n : Nat) : NeZero n.minFac := ⟨(Nat.minFac_pos n).ne'⟩

/-- the general-radix recursion as a function on arrays -/
def mixAnyRec (inv : Bool) (N : Nat) (wv : Nat → C) (n s : Nat) (v : Nat → C) : Nat → C :=
  if _h : n < 2 then v
  else if n.minFac = n then
    difPure n.minFac 1 s (anyG n.minFac (fun a => wv (mixIdx inv N (s * a))) none) v
  else
    mixAnyRec inv N wv (n / n.minFac) (n.minFac * s)
      (difPure n.minFac (n / n.minFac) s
        (anyG n.minFac (fun a => wv (mixIdx inv N (n / n.minFac * s * a)))
          (some fun p i => wv (mixIdx inv N (i * (s * p))))) v)
termination_by n
decreasing_by
  exact Nat.div_lt_self (by omega) (Nat.minFac_prime (by omega)).one_lt

/-- the mixed-radix recursion as a function on arrays -/
def mixRec (inv : Bool) (N : Nat) (wv : Nat → C) (n s : Nat) (v : Nat → C) : Nat → C :=
  if _h : n < 2 then v
  else if n % 8 = 0 then
    if n = 8 then difPure 8 1 s (coreG (mixEndBF (bf8 inv)) wv fun _ => Fin.elim0) v
    else mixRec inv N wv (n / 8) (8 * s)
      (if 2 ≤ s then difPure 8 (n / 8) s
          (coreG (mix8s inv) wv fun p k => mixIdx inv N ((k.val + 1) * (s * p))) v
        else difPure 8 (n / 8) s (coreG (mix8one inv) wv fun p _ => p) v)
  else if n % 4 = 0 then
    if n = 4 then difPure 4 1 s (coreG (mixEndBF (bf4 inv)) wv fun _ => Fin.elim0) v
    else mixRec inv N wv (n / 4) (4 * s)
      (if 2 ≤ s then difPure 4 (n / 4) s
          (coreG (mix4s inv) wv fun p k => mixIdx inv N ((k.val + 1) * (s * p))) v
        else difPure 4 (n / 4) s (coreG (mix4one inv) wv fun p _ => p) v)
  else if n % 2 = 0 then
    if n = 2 then difPure 2 1 s (coreG (mixEndBF bf2) wv fun _ => Fin.elim0) v
    else mixRec inv N wv (n / 2) (2 * s)
      (difPure 2 (n / 2) s (coreG mix2 wv fun p _ => mixIdx inv N (s * p)) v)
  else if n % 5 = 0 then
    if n = 5 then difPure 5 1 s (coreG mixEnd5 wv fun _ _ => if inv then 4 * s else s) v
    else mixRec inv N wv (n / 5) (5 * s)
      (difPure 5 (n / 5) s (coreG mix5 wv fun p k => if k.val = 0 then
        (if inv then N / 5 * 4 else N / 5) else mixIdx inv N (s * p)) v)
  else if n % 3 = 0 then
    if n = 3 then difPure 3 1 s (coreG mixEnd3 wv fun _ _ => if inv then 2 * s else s) v
    else mixRec inv N wv (n / 3) (3 * s)
      (difPure 3 (n / 3) s (coreG mix3 wv fun p k => if k.val = 0 then
        (if inv then N / 3 * 2 else N / 3) else mixIdx inv N (s * p)) v)
  else mixAnyRec inv N wv n s v
termination_by n
decreasing_by all_goals exact Nat.div_lt_self (by omega) (by omega)

section
variable {R D : Set Loc} {W : Ptr} {wv : Nat → C} {inv : Bool} {path : Path}

/-- core, then the rest on swapped buffers -/
theorem mix_seq {core rest : Items C} {h : Heap C} {x y : Ptr} {N : Nat} {eo : Bool}
    {u u' : Nat → C} (hb : Items.Barriered core)
    (h1 : ∃ h', Good R D (Items.region core) h h' ∧ Arr h' y N u ∧ ∀ l, l ∉ Region y N → h' l = h l)
    (hax : Alloc h x N) (hW : Arr h W (N + 1) wv) (hWy : W.buf ≠ y.buf)
    (h2 : ∀ h1, Arr h1 y N u → Alloc h1 x N → Arr h1 W (N + 1) wv →
      ∃ h2, Good R D (Items.region rest) h1 h2 ∧ Arr h2 (if !eo then x else y) N u' ∧
        ∀ l, l ∉ Region y N → l ∉ Region x N → h2 l = h1 l) :
    ∃ h2, Good R D (Items.region (core ++ rest)) h h2 ∧ Arr h2 (if eo then y else x) N u' ∧
        ∀ l, l ∉ Region x N → l ∉ Region y N → h2 l = h l := by
  obtain ⟨k1, g1, a1, f1⟩ := h1
  obtain ⟨k2, g2, a2, f2⟩ := h2 k1 a1 (hax.of_eq g1.alloc) (hW.of_eq (by
    rintro l ⟨i, hi, rfl⟩
    apply f1
    rw [mem_region']; rintro ⟨e, _⟩; exact hWy e))
  rw [Items.region_append hb]
  refine ⟨k2, g1.append g2, ?_, ?_⟩
  · cases eo <;> exact a2
  · intro l hl1 hl2
    rw [f2 l hl2 hl1, f1 l hl2]

theorem mixIdx_le {N a : Nat} (h : a ≤ N) : mixIdx inv N a ≤ N := by
  unfold mixIdx; split <;> omega

theorem mixAny_good : ∀ (n r s N : Nat) (eo : Bool) (x y : Ptr) (v : Nat → C) (h : Heap C),
    1 < n → n % 2 = 1 → 3 ≤ r → r % 2 = 1 → r ≤ n.minFac → N = n * s → 1 ≤ s →
    (∀ q, q.Prime → q ∣ n → q ≤ 46341) →
    Arr h x N v → Alloc h y N → Sep x N y N → Arr h W (N + 1) wv → W.buf ≠ x.buf → W.buf ≠ y.buf →
    Region x N ⊆ R → Region y N ⊆ R → Region W (N + 1) ⊆ R →
    Region x N ⊆ D → Region y N ⊆ D →
    ∃ h', Good R D (Items.region (mixAny C inv path r n s eo x y W)) h h' ∧
      Arr h' (if eo then y else x) N (mixAnyRec inv N wv n s v) ∧
      ∀ l, l ∉ Region x N → l ∉ Region y N → h' l = h l := by
  intro n
  induction n using Nat.strong_induction_on with
  | _ n ih =>
  intro r s N eo x y v h hn hodd hr hro hrk hN hs hpf hax hay hxy hW hWx hWy hRx hRy hRW hDx hDy
  have hpr : n.minFac.Prime := Nat.minFac_prime (by omega)
  have hk46 : n.minFac ≤ 46341 := hpf _ hpr (Nat.minFac_dvd n)
  rw [mixAny.eq_def, mixAnyRec.eq_def, findK_eq n hn hodd hk46 _ r rfl hr hro hrk,
    dif_neg (by omega)]
  simp only
  by_cases hkn : n.minFac = n
  · rw [if_pos hkn, if_pos hkn]
    obtain ⟨h1, g1, a1, f1⟩ := anyStage_good (R := R) (D := D) (h := h) (x := x) (y := y) (W := W)
      (v := v) (wv := wv) (k := n.minFac) (m := 1) (s := s) (N := N)
      (kindBar path != .serial)
      (by rw [hkn, hN]; ring) hk46
      (xa := fun _ q j => x + (q + s * j)) (ya := fun _ q i => y + (q + s * i))
      (wi := fun a => mixIdx inv N (s * a)) none
      (by
        intro p hp q j
        have : p = 0 := by omega
        subst this
        apply Ptr.add_congr; ring)
      (by
        intro p hp q j
        have : p = 0 := by omega
        subst this
        apply Ptr.add_congr; ring)
      hax hay hxy
      (by
        intro a ha
        apply mixIdx_le
        rw [hN, Nat.mul_comm n]
        exact Nat.mul_le_mul_left _ (by omega))
      (by simp) hW hWy hRx hRW hDy
    rw [tasks2_one] at g1
    simp only [← hN]
    rw [Items.region_append (Items.barriered_loop (by cases path <;> decide) _), Items.region_loop]
    cases eo with
    | true =>
      simp only [if_true]
      refine ⟨h1, ?_, a1, fun l _ h2 => f1 l h2⟩
      rw [show Items.region ([] : Items C) = [] from rfl, List.append_nil]
      exact g1
    | false =>
      simp only [Bool.false_eq_true, if_false]
      obtain ⟨h2, g2, a2, f2⟩ := copy_good (R := R) (D := D) (h := h1) (x := x) (y := y)
        (kindNowait path) a1
        (hax.alloc.of_eq g1.alloc) hxy hRy hDx
      exact ⟨h2, g1.append g2, a2, fun l hl1 hl2 => by rw [f2 l hl1, f1 l hl2]⟩
  · rw [if_neg hkn, if_neg hkn, dif_neg (by have := hpr.two_le; omega)]
    have hm : n = n.minFac * (n / n.minFac) := (Nat.mul_div_cancel' (Nat.minFac_dvd n)).symm
    have hmn : n / n.minFac < n := Nat.div_lt_self (by omega) hpr.one_lt
    have hm1 : 1 < n / n.minFac := by
      rcases Nat.lt_or_ge 1 (n / n.minFac) with h | h
      · exact h
      · exfalso
        rcases Nat.le_one_iff_eq_zero_or_eq_one.1 h with h | h
        · rw [h, Nat.mul_zero] at hm; omega
        · rw [h, Nat.mul_one] at hm; exact hkn hm.symm
    have hmd : n / n.minFac ∣ n := Nat.div_dvd_of_dvd (Nat.minFac_dvd n)
    have hmodd : n / n.minFac % 2 = 1 := by
      by_contra hc
      have h2 : 2 ∣ n / n.minFac := by omega
      have := h2.trans hmd
      omega
    have hk3 : 3 ≤ n.minFac := le_trans hr hrk
    have hkodd : n.minFac % 2 = 1 := by
      by_contra hc
      have h2 : 2 ∣ n.minFac := by omega
      have := h2.trans (Nat.minFac_dvd n)
      omega
    have hN' : N = s * (n.minFac * (n / n.minFac)) := by rw [← hm, hN, Nat.mul_comm]
    have hms : n / n.minFac * s * n.minFac = N := by rw [hN']; ring
    have st := fun par => anyStage_good (R := R) (D := D) (h := h) (x := x) (y := y) (W := W)
      (v := v) (wv := wv) (k := n.minFac) (m := n / n.minFac) (s := s) (N := N) par hN' hk46
      (xa := fun p q j => x + (q + s * p + n / n.minFac * s * j))
      (ya := fun p q i => y + (q + s * p * n.minFac + s * i))
      (wi := fun a => mixIdx inv N (n / n.minFac * s * a))
      (some fun p i => mixIdx inv N (i * (s * p)))
      (by intro p hp q j; apply Ptr.add_congr; ring)
      (by intro p hp q i; apply Ptr.add_congr; ring)
      hax hay hxy
      (by
        intro a ha
        apply mixIdx_le
        rw [← hms]; exact Nat.mul_le_mul_left _ ha.le)
      (by
        intro t ht p hp i hi
        simp at ht
        subst ht
        apply mixIdx_le
        rw [hN', show i * (s * p) = s * (i * p) by ring]
        exact Nat.mul_le_mul_left _ (Nat.mul_le_mul hi.le hp.le))
      hW hWy hRx hRW hDy
    refine mix_seq (u := difPure n.minFac (n / n.minFac) s
        (anyG n.minFac (fun a => wv (mixIdx inv N (n / n.minFac * s * a)))
          (some fun p i => wv (mixIdx inv N (i * (s * p))))) v) ?_ ?_ hax.alloc hW hWy ?_
    · cases path
      · exact Items.barriered_loop (by decide) _
      · exact Items.barriered_loop (by decide) _
    · simp only [← hN]
      cases path
      · simp only [Items.region_loop]
        exact st _
      · simp only [Items.region_loop]
        rw [flat_eq_tasks2 (n / n.minFac) s (fun p q => anyBody C n.minFac
          (fun j => x + (q + s * p + n / n.minFac * s * j))
          (fun a => W + mixIdx inv N (n / n.minFac * s * a))
          (some fun i => W + mixIdx inv N (i * (s * p)))
          (fun i => y + (q + s * p * n.minFac + s * i)) (List.range n.minFac))]
        exact st _
    · intro h1 a1 hal1 hW1
      have hmf : n.minFac ≤ (n / n.minFac).minFac :=
        Nat.minFac_le_of_dvd (Nat.minFac_prime (by omega)).two_le ((Nat.minFac_dvd _).trans hmd)
      exact ih _ hmn n.minFac (n.minFac * s) N (!eo) y x _ h1 hm1 hmodd hk3 hkodd hmf
        (by rw [hN']; ring) (Nat.mul_pos hpr.pos hs)
        (fun q hq hqd => hpf q hq (hqd.trans hmd)) a1 hal1 hxy.symm hW1 hWy hWx hRy hRx hRW hDy hDx

theorem mixEnd_case {r b : Nat} [NeZero r] {S : BFT r b} (hS : LaneWiseT S) {tw : Fin b → Nat}
    {single : Bool} {L s N : Nat} {eo : Bool} {h : Heap C} {x y : Ptr} {v : Nat → C}
    (hN : N = r * s) (hL : 0 < L) (hLs : L ∣ s) (htw : ∀ k, tw k ≤ N)
    (hax : Arr h x N v) (hay : Alloc h y N) (hxy : Sep x N y N)
    (hW : Arr h W (N + 1) wv) (hWx : W.buf ≠ x.buf) (hWy : W.buf ≠ y.buf)
    (hRx : Region x N ⊆ R) (hRW : Region W (N + 1) ⊆ R) (hDx : Region x N ⊆ D)
    (hDy : Region y N ⊆ D) :
    ∃ h', Good R D (Items.region (mixEnd C S L tw path single s x (if eo then y else x) W)) h h' ∧
      Arr h' (if eo then y else x) N (difPure r 1 s (coreG S wv fun _ => tw) v) ∧
      ∀ l, l ∉ Region x N → l ∉ Region y N → h' l = h l := by
  cases eo with
  | true =>
    obtain ⟨h', g, a, f⟩ := mixEnd_good (path := path) (single := single) hS hN hL hLs hax hay
      (Or.inl hxy) htw hW hWy hRx hRW hDy
    exact ⟨h', g, a, fun l _ hl => f l hl⟩
  | false =>
    obtain ⟨h', g, a, f⟩ := mixEnd_good (path := path) (single := single) hS hN hL hLs hax hax.alloc
      (Or.inr rfl) htw hW hWx hRx hRW hDx
    exact ⟨h', g, a, fun l hl _ => f l hl⟩

theorem mixFFT_good : ∀ (n s N : Nat) (eo : Bool) (x y : Ptr) (v : Nat → C) (h : Heap C),
    1 ≤ n → N = n * s → 1 ≤ s → (n = 1 → s = 1 ∧ eo = false) → ((s = 1 ∨ 2 ∣ s) ∨ n % 2 = 1) →
    (∀ q, q.Prime → q ∣ n → q ≤ 46341) →
    Arr h x N v → Alloc h y N → Sep x N y N → Arr h W (N + 1) wv → W.buf ≠ x.buf → W.buf ≠ y.buf →
    Region x N ⊆ R → Region y N ⊆ R → Region W (N + 1) ⊆ R →
    Region x N ⊆ D → Region y N ⊆ D →
    ∃ h', Good R D (Items.region (mixFFT C inv path n s eo x y W)) h h' ∧
      Arr h' (if eo then y else x) N (mixRec inv N wv n s v) ∧
      ∀ l, l ∉ Region x N → l ∉ Region y N → h' l = h l := by
  intro n
  induction n using Nat.strong_induction_on with
  | _ n ih =>
  intro s N eo x y v h hn hN hs hn1 hs2 hpf hax hay hxy hW hWx hWy hRx hRy hRW hDx hDy
  rw [mixFFT.eq_def, mixRec.eq_def]
  simp only [← hN]
  by_cases hn2 : n < 2
  · have e : n = 1 := by omega
    obtain ⟨e1, e2⟩ := hn1 e
    rw [dif_pos (by rw [hN, e, e1]; omega), dif_pos hn2]
    exact ⟨h, .nil, by rw [e2]; exact hax, fun _ _ _ => rfl⟩
  rw [dif_neg (show ¬ N < 2 by rw [hN]; nlinarith), dif_neg hn2]
  -- recursion for a divisor `r`
  have recu : ∀ (r : Nat), 2 ≤ r → n % r = 0 → n ≠ r → (n / r % 2 = 1 ∨ 2 ∣ r * s) → ∀ (u : Nat → C) (h1 : Heap C),
      Arr h1 y N u → Alloc h1 x N → Arr h1 W (N + 1) wv →
      ∃ h2, Good R D (Items.region (mixFFT C inv path (n / r) (r * s) (!eo) y x W)) h1 h2 ∧
        Arr h2 (if !eo then x else y) N (mixRec inv N wv (n / r) (r * s) u) ∧
        ∀ l, l ∉ Region y N → l ∉ Region x N → h2 l = h1 l := by
    intro r hr hd hne hpar u h1 a1 al1 w1
    have hdv : r ∣ n := Nat.dvd_of_mod_eq_zero hd
    have hm : n = r * (n / r) := (Nat.mul_div_cancel' hdv).symm
    have hm1 : 1 < n / r := by
      rcases Nat.lt_or_ge 1 (n / r) with h | h
      · exact h
      · exfalso
        rcases Nat.le_one_iff_eq_zero_or_eq_one.1 h with h | h
        · rw [h, Nat.mul_zero] at hm; omega
        · rw [h, Nat.mul_one] at hm; exact hne hm
    refine ih (n / r) (Nat.div_lt_self (by omega) (by omega)) (r * s) N (!eo) y x u h1 (by omega)
      ?_ (Nat.mul_pos (by omega) hs) (fun h => by omega) ?_
      (fun q hq hqd => hpf q hq (hqd.trans (Nat.div_dvd_of_dvd hdv))) a1 al1 hxy.symm w1 hWy hWx
      hRy hRx hRW hDy hDx
    · rw [hN]; conv_lhs => rw [hm]
      ring
    · rcases hpar with h | h
      · exact Or.inr h
      · exact Or.inl (Or.inr h)
  have hdiv : ∀ {r : Nat}, n % r = 0 → n = r * (n / r) := fun h =>
    (Nat.mul_div_cancel' (Nat.dvd_of_mod_eq_zero h)).symm
  have hspN : ∀ {r p : Nat}, 0 < r → n % r = 0 → p < n / r → r * (s * p) ≤ N := by
    intro r p hr hd hp
    calc r * (s * p) ≤ r * (s * (n / r)) := Nat.mul_le_mul_left _ (Nat.mul_le_mul_left _ hp.le)
      _ = (r * (n / r)) * s := by ring
      _ = N := by rw [← hdiv hd, hN]
  have hsp : ∀ {r p : Nat}, 0 < r → n % r = 0 → p < n / r → s * p ≤ N := by
    intro r p hr hd hp
    exact le_trans (Nat.le_mul_of_pos_left _ hr) (hspN hr hd hp)
  have heven : n % 2 = 0 → 2 ≤ s → 2 ∣ s := by
    intro h0 h2
    rcases hs2 with (h | h) | h
    · omega
    · exact h
    · omega
  by_cases h8 : n % 8 = 0
  · rw [if_pos h8, if_pos h8]
    by_cases e : n = 8
    · rw [if_pos e, if_pos e]
      rw [e] at hN
      split
      · rename_i h2
        exact mixEnd_case (laneT_end (lane_bf8 inv)) hN (by omega) (heven (by omega) h2)
          (fun k => k.elim0) hax hay hxy hW hWx hWy hRx hRW hDx hDy
      · exact mixEnd_case (laneT_end (lane_bf8 inv)) hN (by omega) (by simp)
          (fun k => k.elim0) hax hay hxy hW hWx hWy hRx hRW hDx hDy
    · rw [if_neg e, if_neg e]
      refine mix_seq ?_ ?_ hax.alloc hW hWy
        (recu 8 (by omega) h8 e (Or.inr (Dvd.dvd.mul_right (by decide) _)) _)
      · split <;> exact mixCore_barriered
      · split
        · rename_i h2
          refine mixCore_good (laneT_mix8s inv) (hdiv h8) hN (by omega) (heven (by omega) h2) hax
            hay hxy ?_ hW hWy hRx hRW hDy
          intro p hp k
          apply mixIdx_le
          have := hspN (by omega) h8 hp
          have hk : k.val + 1 ≤ 8 := by omega
          exact le_trans (Nat.mul_le_mul_right _ hk) this
        · refine mixCore_good (laneT_mix8one inv) (hdiv h8) hN (by omega) (by simp) hax
            hay hxy ?_ hW hWy hRx hRW hDy
          intro p hp k
          exact le_trans (Nat.le_mul_of_pos_left _ hs) (hsp (by omega) h8 hp)
  rw [if_neg h8, if_neg h8]
  by_cases h4 : n % 4 = 0
  · rw [if_pos h4, if_pos h4]
    by_cases e : n = 4
    · rw [if_pos e, if_pos e]
      rw [e] at hN
      split
      · rename_i h2
        exact mixEnd_case (laneT_end (lane_bf4 inv)) hN (by omega) (heven (by omega) h2)
          (fun k => k.elim0) hax hay hxy hW hWx hWy hRx hRW hDx hDy
      · exact mixEnd_case (laneT_end (lane_bf4 inv)) hN (by omega) (by simp)
          (fun k => k.elim0) hax hay hxy hW hWx hWy hRx hRW hDx hDy
    · rw [if_neg e, if_neg e]
      refine mix_seq ?_ ?_ hax.alloc hW hWy
        (recu 4 (by omega) h4 e (Or.inr (Dvd.dvd.mul_right (by decide) _)) _)
      · split <;> exact mixCore_barriered
      · split
        · rename_i h2
          refine mixCore_good (laneT_mix4s inv) (hdiv h4) hN (by omega) (heven (by omega) h2) hax
            hay hxy ?_ hW hWy hRx hRW hDy
          intro p hp k
          apply mixIdx_le
          have := hspN (by omega) h4 hp
          have hk : k.val + 1 ≤ 4 := by omega
          exact le_trans (Nat.mul_le_mul_right _ hk) this
        · refine mixCore_good (laneT_mix4one inv) (hdiv h4) hN (by omega) (by simp) hax
            hay hxy ?_ hW hWy hRx hRW hDy
          intro p hp k
          exact le_trans (Nat.le_mul_of_pos_left _ hs) (hsp (by omega) h4 hp)
  rw [if_neg h4, if_neg h4]
  by_cases h2 : n % 2 = 0
  · rw [if_pos h2, if_pos h2]
    by_cases e : n = 2
    · rw [if_pos e, if_pos e]
      rw [e] at hN
      split
      · rename_i h2'
        exact mixEnd_case (laneT_end lane_bf2) hN (by omega) (heven h2 h2')
          (fun k => k.elim0) hax hay hxy hW hWx hWy hRx hRW hDx hDy
      · exact mixEnd_case (laneT_end lane_bf2) hN (by omega) (by simp)
          (fun k => k.elim0) hax hay hxy hW hWx hWy hRx hRW hDx hDy
    · rw [if_neg e, if_neg e]
      refine mix_seq ?_ ?_ hax.alloc hW hWy
        (recu 2 (by omega) h2 e (Or.inr (Dvd.dvd.mul_right (by decide) _)) _)
      · split <;> exact mixCore_barriered
      · split
        · rename_i h2'
          refine mixCore_good laneT_mix2 (hdiv h2) hN (by omega) (heven (by omega) h2') hax
            hay hxy ?_ hW hWy hRx hRW hDy
          intro p hp k
          exact mixIdx_le (hsp (by omega) h2 hp)
        · have e1 : s = 1 := by omega
          have := mixCore_good (R := R) (D := D) (h := h) (path := path) (L := 1) (N := N)
            laneT_mix2 (tw := fun p _ => mixIdx inv N (s * p)) (hdiv h2) hN (by omega) (by simp) hax
            hay hxy (fun p hp k => mixIdx_le (hsp (by omega) h2 hp)) hW hWy hRx hRW hDy
          subst e1
          simp only [Nat.one_mul] at this ⊢
          exact this
  rw [if_neg h2, if_neg h2]
  have hodd : n % 2 = 1 := by omega
  have hoddd : ∀ {r : Nat}, n % r = 0 → n / r % 2 = 1 := by
    intro r hd
    by_contra hc
    have h' : 2 ∣ n / r := by omega
    have := h'.trans (Nat.div_dvd_of_dvd (Nat.dvd_of_mod_eq_zero hd))
    omega
  by_cases h5 : n % 5 = 0
  · rw [if_pos h5, if_pos h5]
    by_cases e : n = 5
    · rw [if_pos e, if_pos e]
      rw [e] at hN
      exact mixEnd_case laneT_end5 hN (by omega) (by simp)
        (fun k => by split <;> omega) hax hay hxy hW hWx hWy hRx hRW hDx hDy
    · rw [if_neg e, if_neg e]
      refine mix_seq mixCore_barriered ?_ hax.alloc hW hWy
        (recu 5 (by omega) h5 e (Or.inl (hoddd h5)) _)
      refine mixCore_good laneT_mix5 (hdiv h5) hN (by omega) (by simp) hax
            hay hxy ?_ hW hWy hRx hRW hDy
      intro p hp k
      split
      · split <;> omega
      · exact mixIdx_le (hsp (by omega) h5 hp)
  rw [if_neg h5, if_neg h5]
  by_cases h3 : n % 3 = 0
  · rw [if_pos h3, if_pos h3]
    by_cases e : n = 3
    · rw [if_pos e, if_pos e]
      rw [e] at hN
      exact mixEnd_case laneT_end3 hN (by omega) (by simp)
        (fun k => by split <;> omega) hax hay hxy hW hWx hWy hRx hRW hDx hDy
    · rw [if_neg e, if_neg e]
      refine mix_seq mixCore_barriered ?_ hax.alloc hW hWy
        (recu 3 (by omega) h3 e (Or.inl (hoddd h3)) _)
      refine mixCore_good laneT_mix3 (hdiv h3) hN (by omega) (by simp) hax
            hay hxy ?_ hW hWy hRx hRW hDy
      intro p hp k
      split
      · split <;> omega
      · exact mixIdx_le (hsp (by omega) h3 hp)
  rw [if_neg h3, if_neg h3]
  refine mixAny_good n 7 s N eo x y v h (by omega) hodd (by omega) (by omega) ?_ hN hs hpf hax hay
    hxy hW hWx hWy hRx hRy hRW hDx hDy
  -- smallest prime factor of a number not divisible by 2, 3, 5
  have hp := Nat.minFac_prime (show n ≠ 1 by omega)
  have hd := Nat.minFac_dvd n
  have h2le := hp.two_le
  by_contra hc
  have : n.minFac = 2 ∨ n.minFac = 3 ∨ n.minFac = 4 ∨ n.minFac = 5 ∨ n.minFac = 6 := by omega
  rcases this with e | e | e | e | e <;> rw [e] at hd
  · omega
  · omega
  · omega
  · omega
  · omega

end
end OTFFT
