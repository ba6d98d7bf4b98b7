/-
Code that cannot complete: a prime factor above 46341 overflows the `int` product of the general-radix
stage, whatever the memory contains and whatever the schedule.
-/
import Verif.Proof.MixedRec
import Verif.Spec.History

namespace OTFFT

set_option linter.unusedSectionVars false

variable {F C : Type} [DArith F] [CArith F C]

/-- every path through the task ends in undefined behaviour -/
inductive Prog.Doomed : Task C → Prop where
  | ub : Prog.Doomed .ub
  | load {l k} : (∀ v, Prog.Doomed (k v)) → Prog.Doomed (.load l k)
  | store {l v k} : Prog.Doomed k → Prog.Doomed (.store l v k)

theorem Prog.Doomed.step {t t' : Task C} {h h' : Heap C} (d : t.Doomed) (s : TStep t h t' h') : t'.Doomed := by
  cases s with
  | load _ => cases d with | load k => exact k _
  | store _ => cases d with | store k => exact k

theorem Prog.Doomed.ne_ret {t : Task C} (d : t.Doomed) : t ≠ .ret () := by
  rintro rfl; cases d

def Code.Doomed (c : Code C) : Prop := ∃ ph ∈ c, ∃ t ∈ ph, t.Doomed

def Config.Doomed (c : Config C) : Prop := (∃ t ∈ c.cur, t.Doomed) ∨ c.rest.Doomed

theorem Config.Doomed.step {c d : Config C} (hd : c.Doomed) (s : CStep c d) : d.Doomed := by
  cases s with
  | @task ts rest h p p' h' i hi st =>
    rcases hd with ⟨t, ht, dt⟩ | hd
    · left
      obtain ⟨j, hj⟩ := List.mem_iff_getElem?.1 ht
      obtain ⟨hl, e⟩ := List.getElem?_eq_some_iff.1 hi
      by_cases hij : i = j
      · subst hij
        rw [hi] at hj
        cases hj
        exact ⟨p', List.mem_iff_getElem?.2 ⟨i, by simp [hl]⟩, dt.step st⟩
      · exact ⟨t, List.mem_iff_getElem?.2 ⟨j, by rw [List.getElem?_set_ne hij]; exact hj⟩, dt⟩
    · exact Or.inr hd
  | @barrier ts ph rest h ha =>
    rcases hd with ⟨t, ht, dt⟩ | ⟨q, hq, t, ht, dt⟩
    · exact absurd (ha t ht) dt.ne_ret
    · rcases List.mem_cons.1 hq with rfl | hq
      · exact Or.inl ⟨t, ht, dt⟩
      · exact Or.inr ⟨q, hq, t, ht, dt⟩

theorem Config.Doomed.not_final {c : Config C} (hd : c.Doomed) : ¬ c.Final := by
  rintro ⟨h1, h2⟩
  rcases hd with ⟨t, ht, dt⟩ | ⟨q, hq, _⟩
  · exact dt.ne_ret (h1 t ht)
  · rw [h2] at hq; simp at hq

/-! ### every execution is finite -/

/-- one task moves on, whatever it reads -/
inductive Move : List (Task C) → List (Task C) → Prop where
  | load {l k v ts} : Move (k v :: ts) (.load l k :: ts)
  | store {l v k ts} : Move (k :: ts) (.store l v k :: ts)
  | tail {t ts ts'} : Move ts' ts → Move (t :: ts') (t :: ts)

theorem Move.acc_nil : Acc (Move (C := C)) [] := .intro _ fun _ h => by cases h

theorem Move.acc_cons (t : Task C) : ∀ ts, Acc (Move (C := C)) ts → Acc (Move (C := C)) (t :: ts) := by
  induction t with
  | ret a =>
    intro ts h
    induction h with
    | intro ts _ ih => exact .intro _ fun u hu => by cases hu with | tail h => exact ih _ h
  | ub =>
    intro ts h
    induction h with
    | intro ts _ ih => exact .intro _ fun u hu => by cases hu with | tail h => exact ih _ h
  | load l k ihk =>
    intro ts h
    induction h with
    | intro ts ha ih =>
      refine .intro _ fun u hu => ?_
      cases hu with
      | load => exact ihk _ ts (.intro _ ha)
      | tail h => exact ih _ h
  | store l v k ihk =>
    intro ts h
    induction h with
    | intro ts ha ih =>
      refine .intro _ fun u hu => ?_
      cases hu with
      | store => exact ihk ts (.intro _ ha)
      | tail h => exact ih _ h

theorem Move.acc (ts : List (Task C)) : Acc (Move (C := C)) ts := by
  induction ts with
  | nil => exact acc_nil
  | cons t ts ih => exact acc_cons t ts ih

theorem Move.of_step {ts : List (Task C)} {h h' : Heap C} {p p' : Task C} :
    ∀ {i : Nat}, ts[i]? = some p → TStep p h p' h' → Move (ts.set i p') ts := by
  induction ts with
  | nil => intro i hi _; simp at hi
  | cons t ts ih =>
    intro i hi s
    cases i with
    | zero =>
      simp at hi
      subst hi
      cases s with
      | load _ => exact .load
      | store _ => exact .store
    | succ i => exact .tail (ih (by simpa using hi) s)

theorem CStep.acc : ∀ (rest : Code C) (ts : List (Task C)) (h : Heap C),
    Acc (fun b a : Config C => CStep a b) ⟨ts, rest, h⟩ := by
  intro rest
  induction rest with
  | nil =>
    intro ts
    induction Move.acc ts with
    | intro ts _ ih =>
      intro h
      refine .intro _ fun d hd => ?_
      cases hd with
      | task i hi s => exact ih _ (Move.of_step hi s) _
  | cons ph rest ihr =>
    intro ts
    induction Move.acc ts with
    | intro ts _ ih =>
      intro h
      refine .intro _ fun d hd => ?_
      cases hd with
      | task i hi s => exact ih _ (Move.of_step hi s) _
      | barrier _ => exact ihr _ _

/-- a configuration that cannot move has finished or has undefined behaviour -/
theorem Config.progress (c : Config C) : c.Final ∨ c.UB ∨ ∃ d, CStep c d := by
  obtain ⟨ts, rest, h⟩ := c
  by_cases hall : ∀ t ∈ ts, t = .ret ()
  · cases rest with
    | nil => exact Or.inl ⟨hall, rfl⟩
    | cons ph r => exact Or.inr (Or.inr ⟨_, .barrier hall⟩)
  · push Not at hall
    obtain ⟨t, ht, hne⟩ := hall
    obtain ⟨i, hi⟩ := List.mem_iff_getElem?.1 ht
    cases t with
    | ret a => exact absurd rfl hne
    | ub => exact Or.inr (Or.inl (Or.inl ⟨_, ht, .ub⟩))
    | load l k =>
      by_cases hv : ∃ v, h l = some (some v)
      · obtain ⟨v, hv⟩ := hv
        exact Or.inr (Or.inr ⟨_, .task i hi (.load hv)⟩)
      · exact Or.inr (Or.inl (Or.inl ⟨_, ht, .load fun v e => hv ⟨v, e⟩⟩))
    | store l v k =>
      by_cases hv : h l = none
      · exact Or.inr (Or.inl (Or.inl ⟨_, ht, .store hv⟩))
      · exact Or.inr (Or.inr ⟨_, .task i hi (.store hv)⟩)

theorem Config.Doomed.alwaysUB {c : Config C} (hd : c.Doomed) : AlwaysUB c := by
  obtain ⟨ts, rest, h⟩ := c
  have := CStep.acc rest ts h
  generalize (⟨ts, rest, h⟩ : Config C) = c at this hd
  induction this with
  | intro c _ ih =>
    rcases c.progress with hf | hu | hs
    · exact absurd hf hd.not_final
    · exact .now hu
    · exact .later hs fun d s => ih d s (hd.step s)

theorem Code.Doomed.alwaysUB {c : Code C} (hd : c.Doomed) (h : Heap C) : AlwaysUB (c.start h) :=
  Config.Doomed.alwaysUB (Or.inr hd)

theorem AlwaysUB.reach {c : Config C} (a : AlwaysUB c) : ∃ d, Reach c d ∧ d.UB := by
  induction a with
  | now h => exact ⟨_, .refl _, h⟩
  | later hs _ ih =>
    obtain ⟨d, s⟩ := hs
    obtain ⟨e, r, u⟩ := ih d s
    exact ⟨e, .step s r, u⟩

/-- undefined behaviour on every path excludes a good execution -/
theorem AlwaysUB.not_allSched {Q : Heap C → Prop} {c : Config C} (a : AlwaysUB c) : ¬ AllSched Q c := by
  intro s
  obtain ⟨d, r, u⟩ := a.reach
  exact s.noUB r u

theorem Code.Doomed.left {c1 c2 : Code C} (d : c1.Doomed) : Code.Doomed (c1 ++ c2) := by
  obtain ⟨p, hp, t⟩ := d
  exact ⟨p, List.mem_append_left _ hp, t⟩

theorem Code.Doomed.right {c1 c2 : Code C} (d : c2.Doomed) : Code.Doomed (c1 ++ c2) := by
  obtain ⟨p, hp, t⟩ := d
  exact ⟨p, List.mem_append_right _ hp, t⟩

/-! ### items -/

def Items.Doomed (its : Items C) : Prop := ∃ i ∈ its, ∃ t ∈ i.1, Prog.Doomed t

theorem Items.Doomed.left {a b : Items C} (d : a.Doomed) : Items.Doomed (a ++ b) := by
  obtain ⟨p, hp, t⟩ := d
  exact ⟨p, List.mem_append_left _ hp, t⟩

theorem Items.Doomed.right {a b : Items C} (d : b.Doomed) : Items.Doomed (a ++ b) := by
  obtain ⟨p, hp, t⟩ := d
  exact ⟨p, List.mem_append_right _ hp, t⟩

theorem Items.Doomed.loop {k : LoopKind} {ts : List (Task C)} {t : Task C} (ht : t ∈ ts) (d : t.Doomed) :
    Items.Doomed (Items.loop k ts) := by
  cases k with
  | serial => exact ⟨([t], true), List.mem_map.2 ⟨t, ht, rfl⟩, t, by simp, d⟩
  | omp => exact ⟨(ts, true), by simp [Items.loop], t, ht, d⟩
  | ompNowait => exact ⟨(ts, false), by simp [Items.loop], t, ht, d⟩

/-! ### the general-radix stage -/

theorem anyInner_doomed {k i : Nat} {xa wa : Nat → Ptr} {κ : C → Task C} :
    ∀ (js : List Nat) (z : C), ((∃ j ∈ js, intLim ≤ i * j) ∨ ∀ z, (κ z).Doomed) →
      (anyInner C k i xa wa js z κ).Doomed := by
  intro js
  induction js with
  | nil =>
    rintro z (⟨j, hj, _⟩ | ho)
    · simp at hj
    · exact ho z
  | cons j js ih =>
    intro z ho
    unfold anyInner
    refine .load fun a => ?_
    by_cases hlt : i * j < intLim
    · rw [if_pos hlt]
      refine .load fun b => ih _ ?_
      rcases ho with ⟨j', hj', hle⟩ | ho
      · rcases List.mem_cons.1 hj' with rfl | hj'
        · omega
        · exact Or.inl ⟨j', hj', hle⟩
      · exact Or.inr ho
    · rw [if_neg hlt]
      exact .ub

theorem anyBody_doomed {k : Nat} {xa wa ya : Nat → Ptr} {wip : Option (Nat → Ptr)} :
    ∀ (is : List Nat), (∃ i ∈ is, ∃ j < k, intLim ≤ i * j) → (anyBody C k xa wa wip ya is).Doomed := by
  intro is
  induction is with
  | nil => rintro ⟨i, hi, _⟩; simp at hi
  | cons i is ih =>
    rintro ⟨i', hi', j', hj', hle⟩
    unfold anyBody
    refine anyInner_doomed _ _ ?_
    rcases List.mem_cons.1 hi' with rfl | hi'
    · exact Or.inl ⟨j', by simpa using hj', hle⟩
    right
    intro z
    have hrec := ih ⟨i', hi', j', hj', hle⟩
    cases wip with
    | none => exact .store hrec
    | some w => exact .load fun _ => .store hrec

theorem anyBody_big {k : Nat} (hk : 46341 < k) {xa wa ya : Nat → Ptr} {wip : Option (Nat → Ptr)} :
    (anyBody C k xa wa wip ya (List.range k)).Doomed :=
  anyBody_doomed _ ⟨46341, by simpa using hk, 46341, hk, by decide⟩

/-- the factor found is the smallest one (when the search does not overflow) -/
theorem findK_some (n : Nat) (hn : 1 < n) (hodd : n % 2 = 1) :
    ∀ (d r k : Nat), n + 2 - r = d → 3 ≤ r → r % 2 = 1 → r ≤ n.minFac → findK n r = some k → k = n.minFac := by
  have hpr : n.minFac.Prime := Nat.minFac_prime (by omega)
  have hmodd : n.minFac % 2 = 1 := by
    by_contra hc
    have h2 : 2 ∣ n.minFac := by omega
    have : 2 ∣ n := h2.trans (Nat.minFac_dvd n)
    omega
  intro d
  induction d using Nat.strong_induction_on with
  | _ d ih =>
    intro r k hd hr hro hle hk
    have hmn : n.minFac ≤ n := Nat.minFac_le (by omega)
    rw [findK.eq_def] at hk
    split at hk
    · rename_i h1
      have : n.minFac ≤ r := Nat.minFac_le_of_dvd (by omega) (Nat.dvd_of_mod_eq_zero h1)
      simp at hk; omega
    · rename_i h1
      have hlt : r < n.minFac := by
        rcases Nat.lt_or_eq_of_le hle with h | h
        · exact h
        · exact absurd (Nat.mod_eq_zero_of_dvd (h ▸ Nat.minFac_dvd n)) h1
      split at hk
      · simp at hk
      · split at hk
        · rename_i h3
          simp at hk
          subst hk
          by_contra hne
          have hnp : ¬ n.Prime := fun hp => hne ((Nat.Prime.minFac_eq hp).symm)
          have := Nat.minFac_sq_le_self (by omega) hnp
          have : r * r ≤ n.minFac * n.minFac := Nat.mul_le_mul hlt.le hlt.le
          nlinarith
        · exact ih _ (by omega) (r + 2) k rfl (by omega) (by omega) (by omega) hk

theorem findK_dvd (n : Nat) : ∀ (d r k : Nat), n + 2 - r = d → findK n r = some k → k ∣ n := by
  intro d
  induction d using Nat.strong_induction_on with
  | _ d ih =>
    intro r k hd hk
    rw [findK.eq_def] at hk
    split at hk
    · rename_i h; simp at hk; subst hk; exact Nat.dvd_of_mod_eq_zero h
    · split at hk
      · simp at hk
      · split at hk
        · simp at hk; subst hk; exact dvd_rfl
        · rename_i h
          have : r ≤ n := by
            rcases Nat.eq_zero_or_pos r with h0 | h0
            · omega
            · have := Nat.le_mul_of_pos_left r h0; omega
          exact ih _ (by omega) (r + 2) k rfl hk

/-- below `46339²` the search does not overflow -/
theorem findK_fits (n : Nat) (hn : 1 < n) (hlt : n < 46339 ^ 2) :
    ∀ (d r : Nat), n + 2 - r = d → 1 ≤ r → r % 2 = 1 → r ≤ 46339 → ∃ k, findK n r = some k := by
  intro d
  induction d using Nat.strong_induction_on with
  | _ d ih =>
    intro r hd hr hro hle
    rw [findK.eq_def]
    split
    · exact ⟨_, rfl⟩
    · have : r * r ≤ 46339 * 46339 := Nat.mul_le_mul hle hle
      rw [if_neg (by unfold intLim; omega)]
      split
      · exact ⟨_, rfl⟩
      · rename_i h
        have hrn : r ≤ n := by have := Nat.le_mul_of_pos_left r hr; omega
        refine ih _ (by omega) (r + 2) rfl (by omega) (by omega) ?_
        by_contra hc
        have : r = 46339 := by omega
        subst this
        omega

/-- a number from `46339²` on without factor up to 46341 makes it overflow -/
theorem findK_over (n : Nat) (hbig : 46341 < n.minFac) (hge : 46339 ^ 2 ≤ n) :
    ∀ (d r k : Nat), n + 2 - r = d → 2 ≤ r → r % 2 = 1 → r ≤ 46341 → findK n r ≠ some k := by
  intro d
  induction d using Nat.strong_induction_on with
  | _ d ih =>
    intro r k hd hr hro hle
    rw [findK.eq_def]
    have hnd : ¬ n % r = 0 := fun h => by
      have := Nat.minFac_le_of_dvd (by omega) (Nat.dvd_of_mod_eq_zero h)
      omega
    rw [if_neg hnd]
    split
    · simp
    · rename_i h1
      have hr46 : r ≤ 46339 := by
        by_contra hc
        have : r = 46341 := by omega
        subst this
        exact h1 (by decide)
      have : r * r ≤ 46339 * 46339 := Nat.mul_le_mul hr46 hr46
      rw [dif_neg (by omega)]
      have hrn : r ≤ n := by have := Nat.le_mul_of_pos_left r (show 0 < r by omega); omega
      exact ih _ (by omega) (r + 2) k rfl (by omega) (by omega) (by omega)

section
variable {W : Ptr} {inv : Bool} {path : Path}

theorem ub_doomed : Items.Doomed ([([.ub], true)] : Items C) := ⟨([.ub], true), by simp, .ub, by simp, .ub⟩

theorem mixAny_doomed : ∀ (n r s : Nat) (eo : Bool) (x y : Ptr),
    1 < n → n % 2 = 1 → 3 ≤ r → r % 2 = 1 → r ≤ n.minFac → 1 ≤ s →
    (∃ q, q.Prime ∧ q ∣ n ∧ 46341 < q) → Items.Doomed (mixAny C inv path r n s eo x y W) := by
  intro n
  induction n using Nat.strong_induction_on with
  | _ n ih =>
  intro r s eo x y hn hodd hr hro hrk hs hpf
  have hpr : n.minFac.Prime := Nat.minFac_prime (by omega)
  obtain ⟨q, hq, hqn, hq46⟩ := hpf
  rw [mixAny.eq_def]
  simp only
  cases hf : findK n r with
  | none => exact ub_doomed
  | some k =>
  have hk := findK_some n hn hodd _ r k rfl hr hro hrk hf
  subst hk
  simp only
  by_cases hkn : n.minFac = n
  · rw [if_pos hkn]
    have hqe : q = n := ((Nat.prime_dvd_prime_iff_eq hq (hkn ▸ hpr)).1 hqn)
    exact Items.Doomed.left (Items.Doomed.loop (List.mem_map.2 ⟨0, List.mem_range.2 (by omega), rfl⟩) (anyBody_big (by omega)))
  · rw [if_neg hkn, dif_neg (by have := hpr.two_le; omega)]
    have hm : n = n.minFac * (n / n.minFac) := (Nat.mul_div_cancel' (Nat.minFac_dvd n)).symm
    have hmn : n / n.minFac < n := Nat.div_lt_self (by omega) hpr.one_lt
    have hm1 : 1 < n / n.minFac := by
      rcases Nat.lt_or_ge 1 (n / n.minFac) with h | h
      · exact h
      · exfalso
        rcases Nat.le_one_iff_eq_zero_or_eq_one.1 h with h | h
        · rw [h, Nat.mul_zero] at hm; omega
        · rw [h, Nat.mul_one] at hm; exact hkn hm.symm
    have hmd : n / n.minFac ∣ n := Nat.div_dvd_of_dvd (Nat.minFac_dvd n)
    have hmodd : n / n.minFac % 2 = 1 := by
      by_contra hc
      have h2 : 2 ∣ n / n.minFac := by omega
      have := h2.trans hmd
      omega
    have hk3 : 3 ≤ n.minFac := le_trans hr hrk
    have hkodd : n.minFac % 2 = 1 := by
      by_contra hc
      have h2 : 2 ∣ n.minFac := by omega
      have := h2.trans (Nat.minFac_dvd n)
      omega
    by_cases hk46 : n.minFac ≤ 46341
    · have hmf : n.minFac ≤ (n / n.minFac).minFac :=
        Nat.minFac_le_of_dvd (Nat.minFac_prime (by omega)).two_le ((Nat.minFac_dvd _).trans hmd)
      have hqm : q ∣ n / n.minFac := by
        rw [hm] at hqn
        rcases (hq.dvd_mul).1 hqn with h | h
        · have := Nat.le_of_dvd hpr.pos h; omega
        · exact h
      exact Items.Doomed.right (ih _ hmn n.minFac (n.minFac * s) (!eo) y x hm1 hmodd hk3 hkodd hmf
        (Nat.mul_pos hpr.pos hs) ⟨q, hq, hqm, hq46⟩)
    · refine Items.Doomed.left ?_
      have hk : 46341 < n.minFac := by omega
      cases path with
      | serial =>
        refine Items.Doomed.loop (List.mem_flatMap.2 ⟨0, List.mem_range.2 (by omega), List.mem_map.2 ⟨0, List.mem_range.2 (by omega), rfl⟩⟩) ?_
        exact anyBody_big hk
      | omp =>
        refine Items.Doomed.loop (List.mem_map.2 ⟨0, ?_, rfl⟩) (anyBody_big hk)
        rw [List.mem_range]
        exact Nat.mul_pos (by omega) hs

theorem mixFFT_doomed : ∀ (n s : Nat) (eo : Bool) (x y : Ptr), 1 ≤ n → 1 ≤ s →
    (∃ q, q.Prime ∧ q ∣ n ∧ 46341 < q) → Items.Doomed (mixFFT C inv path n s eo x y W) := by
  intro n
  induction n using Nat.strong_induction_on with
  | _ n ih =>
  intro s eo x y hn hs hpf
  obtain ⟨q, hq, hqn, hq46⟩ := hpf
  have hbig : 46341 < n := lt_of_lt_of_le hq46 (Nat.le_of_dvd (by omega) hqn)
  rw [mixFFT.eq_def]
  simp only
  rw [dif_neg (show ¬ n * s < 2 by nlinarith)]
  have recu : ∀ (r : Nat), 2 ≤ r → r ≤ 8 → n % r = 0 →
      Items.Doomed (mixFFT C inv path (n / r) (r * s) (!eo) y x W) := by
    intro r hr hr8 hd
    have hdv : r ∣ n := Nat.dvd_of_mod_eq_zero hd
    have hm : n = r * (n / r) := (Nat.mul_div_cancel' hdv).symm
    have hqm : q ∣ n / r := by
      rw [hm] at hqn
      rcases (hq.dvd_mul).1 hqn with h | h
      · have := Nat.le_of_dvd (by omega) h; omega
      · exact h
    have hm1 : 1 ≤ n / r := by
      rcases Nat.eq_zero_or_pos (n / r) with h | h
      · rw [h, Nat.mul_zero] at hm; omega
      · exact h
    exact ih (n / r) (Nat.div_lt_self (by omega) (by omega)) (r * s) (!eo) y x (by omega)
      (Nat.mul_pos (by omega) hs) ⟨q, hq, hqm, hq46⟩
  by_cases h8 : n % 8 = 0
  · rw [if_pos h8, if_neg (by omega)]
    exact .right (recu 8 (by omega) (by omega) h8)
  rw [if_neg h8]
  by_cases h4 : n % 4 = 0
  · rw [if_pos h4, if_neg (by omega)]
    exact .right (recu 4 (by omega) (by omega) h4)
  rw [if_neg h4]
  by_cases h2 : n % 2 = 0
  · rw [if_pos h2, if_neg (by omega)]
    exact .right (recu 2 (by omega) (by omega) h2)
  rw [if_neg h2]
  by_cases h5 : n % 5 = 0
  · rw [if_pos h5, if_neg (by omega)]
    exact .right (recu 5 (by omega) (by omega) h5)
  rw [if_neg h5]
  by_cases h3 : n % 3 = 0
  · rw [if_pos h3, if_neg (by omega)]
    exact .right (recu 3 (by omega) (by omega) h3)
  rw [if_neg h3]
  refine mixAny_doomed n 7 s eo x y (by omega) (by omega) (by omega) (by omega) ?_ hs ⟨q, hq, hqn, hq46⟩
  have hp := Nat.minFac_prime (show n ≠ 1 by omega)
  have hd := Nat.minFac_dvd n
  have h2le := hp.two_le
  by_contra hc
  have : n.minFac = 2 ∨ n.minFac = 3 ∨ n.minFac = 4 ∨ n.minFac = 5 ∨ n.minFac = 6 := by omega
  rcases this with e | e | e | e | e <;> rw [e] at hd <;> omega

end

/-! ### regions -/

theorem Items.Doomed.region {its : Items C} (d : its.Doomed) : Code.Doomed (Items.region its) := by
  induction its with
  | nil => obtain ⟨i, hi, _⟩ := d; simp at hi
  | cons it its ih =>
    obtain ⟨ts, b⟩ := it
    obtain ⟨i, hi, t, ht, dt⟩ := d
    cases b with
    | true =>
      rcases List.mem_cons.1 hi with rfl | hi
      · exact ⟨ts, by simp [Items.region], t, ht, dt⟩
      · obtain ⟨p, hp, q⟩ := ih ⟨i, hi, t, ht, dt⟩
        exact ⟨p, by simp [Items.region, hp], q⟩
    | false =>
      rw [Items.region]
      rcases List.mem_cons.1 hi with rfl | hi
      · split
        · exact ⟨ts, by simp, t, ht, dt⟩
        · exact ⟨_, List.mem_cons_self, t, List.mem_append_left _ ht, dt⟩
      · obtain ⟨p, hp, t', ht', dt'⟩ := ih ⟨i, hi, t, ht, dt⟩
        split
        · rename_i e; rw [e] at hp; simp at hp
        · rename_i e
          rw [e] at hp
          rcases List.mem_cons.1 hp with rfl | hp
          · exact ⟨_, List.mem_cons_self, t', List.mem_append_right _ ht', dt'⟩
          · exact ⟨p, List.mem_cons_of_mem _ hp, t', ht', dt'⟩

theorem mixRun_doomed {thr : Thr} {inv : Bool} {mode : ScaleMode} {n : Nat} {x y W : Ptr} (hn : 1 ≤ n)
    (hq : ∃ q, q.Prime ∧ q ∣ n ∧ 46341 < q) : (mixRun C thr inv mode n x y W).Doomed :=
  Code.Doomed.left (Items.Doomed.region (mixFFT_doomed n 1 false x y hn le_rfl hq))

/-! ### programs -/

theorem Act.mayUB_seq {α β : Type} {m : Act C α} {f : α → Act C β} {w w' : World C} {a : α}
    (r : m.Runs w a w') (u : (f a).MayUB w') : (m >>= f).MayUB w := by
  show (m.bind f).MayUB w
  induction r with
  | ret => exact u
  | run hr hf _ ih => exact .run hr hf (ih u)
  | mallocFail _ ih => exact .mallocFail (ih u)
  | mallocOk b hb hl _ ih => exact .mallocOk b hb hl (ih u)
  | free hb _ ih => exact .free hb (ih u)

end OTFFT
