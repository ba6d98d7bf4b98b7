/-
A lower bound on the number of accesses: the stages of general radix.
-/
import Verif.Proof.WorkObj

namespace OTFFT

set_option linter.unusedSectionVars false

/-! ### Tasks and code -/

section
variable {C : Type}

/-- every complete run of the task makes at least `n` accesses -/
inductive Prog.AL {α : Type} : Prog C α → ℕ → Prop where
  | ret {a} : Prog.AL (.ret a) 0
  | ub {n} : Prog.AL .ub n
  | load {l k n} : (∀ v, Prog.AL (k v) n) → Prog.AL (.load l k) (n + 1)
  | store {l v k n} : Prog.AL k n → Prog.AL (.store l v k) (n + 1)
  | le {p n m} : Prog.AL p n → m ≤ n → Prog.AL p m

theorem Prog.AL.zero {α : Type} (p : Prog C α) : p.AL 0 := by
  induction p with
  | ret a => exact .ret
  | ub => exact .ub
  | load l k ih => exact .le (.load ih) (by omega)
  | store l v k ih => exact .le (.store ih) (by omega)

theorem Prog.AL.ret_le {α : Type} {a : α} {n : ℕ} (h : Prog.AL (.ret a : Prog C α) n) : n = 0 := by
  generalize hp : (Prog.ret a : Prog C α) = p at h
  induction h with
  | ret => rfl
  | ub => cases hp
  | load => cases hp
  | store => cases hp
  | le _ hm ih => have := ih hp; omega

theorem Prog.AL.step {p p' : Task C} {h h' : Heap C} {n : ℕ} (hp : p.AL n) (hs : TStep p h p' h') : p'.AL (n - 1) := by
  induction hp with
  | ret => cases hs
  | ub => cases hs
  | load hk _ => cases hs with | load hl => exact .le (hk _) (by omega)
  | store hk _ => cases hs with | store hl => exact .le hk (by omega)
  | le _ hm ih => exact .le (ih hs) (by omega)

/-- all tasks of the list together make at least `n` accesses -/
inductive TasksAL : List (Task C) → ℕ → Prop where
  | nil : TasksAL [] 0
  | cons {t ts a b n} : Prog.AL t a → TasksAL ts b → n ≤ a + b → TasksAL (t :: ts) n

theorem TasksAL.mono {ts : List (Task C)} {n m : ℕ} (h : TasksAL ts n) (hm : m ≤ n) : TasksAL ts m := by
  cases h with
  | nil => obtain rfl : m = 0 := by omega
           exact .nil
  | cons ha hb hn => exact .cons ha hb (by omega)

theorem TasksAL.zero (ts : List (Task C)) : TasksAL ts 0 := by
  induction ts with
  | nil => exact .nil
  | cons t ts ih => exact .cons (.zero t) ih (by omega)

theorem TasksAL.append {s t : List (Task C)} {n m : ℕ} (h : TasksAL s n) (h' : TasksAL t m) :
    TasksAL (s ++ t) (n + m) := by
  induction h with
  | nil => exact h'.mono (by omega)
  | cons ha _ hn ih => exact .cons ha ih (by omega)

theorem TasksAL.all {ts : List (Task C)} {a : ℕ} (h : ∀ t ∈ ts, Prog.AL t a) : TasksAL ts (ts.length * a) := by
  induction ts with
  | nil => exact TasksAL.nil.mono (by simp)
  | cons t ts ih =>
    refine .cons (h t (by simp)) (ih fun t ht => h t (by simp [ht])) ?_
    rw [List.length_cons, Nat.add_mul, Nat.one_mul, Nat.add_comm]

theorem TasksAL.tasks1 {n a : ℕ} {f : ℕ → Task C} (h : ∀ i, i < n → (f i).AL a) : TasksAL (tasks1 n f) (n * a) := by
  have := TasksAL.all (ts := OTFFT.tasks1 n f) (a := a) ?_
  · simpa [OTFFT.tasks1] using this
  · intro t ht
    simp only [OTFFT.tasks1, List.mem_map, List.mem_range] at ht
    obtain ⟨i, hi, rfl⟩ := ht
    exact h i hi

theorem TasksAL.flatMap {α : Type} {l : List α} {f : α → List (Task C)} {a : ℕ} (h : ∀ i ∈ l, TasksAL (f i) a) :
    TasksAL (l.flatMap f) (l.length * a) := by
  induction l with
  | nil => exact TasksAL.nil.mono (by simp)
  | cons i l ih =>
    rw [List.flatMap_cons, List.length_cons, Nat.add_mul, Nat.one_mul, Nat.add_comm]
    exact (h i (by simp)).append (ih fun j hj => h j (by simp [hj]))

theorem TasksAL.tasks2 {m k a : ℕ} {f : ℕ → ℕ → Task C} (h : ∀ p i, p < m → i < k → (f p i).AL a) :
    TasksAL (tasks2 m k f) (m * k * a) := by
  have := TasksAL.flatMap (l := List.range m) (f := fun p => (List.range k).map fun i => f p i) (a := k * a) ?_
  · rw [List.length_range] at this
    rw [Nat.mul_assoc]; exact this
  · intro p hp
    exact TasksAL.tasks1 fun i hi => h p i (List.mem_range.1 hp) hi

theorem TasksAL.done {ts : List (Task C)} {n : ℕ} (h : TasksAL ts n) (hd : ∀ t ∈ ts, t = .ret ()) : n = 0 := by
  induction h with
  | nil => rfl
  | @cons t ts a b n ha _ hn ih =>
    have h1 := ih fun t ht => hd t (by simp [ht])
    have h2 := hd t (by simp)
    subst h2
    have := ha.ret_le
    omega

theorem TasksAL.split {s t : List (Task C)} {m : ℕ} (h : TasksAL (s ++ t) m) : ∃ p q, TasksAL s p ∧ TasksAL t q ∧ m ≤ p + q := by
  induction s generalizing m with
  | nil => exact ⟨0, m, .nil, h, by omega⟩
  | cons u s ih =>
    rw [List.cons_append] at h
    cases h with
    | cons ha hb hn =>
      obtain ⟨p, q, hp, hq, hpq⟩ := ih hb
      exact ⟨_, q, .cons ha hp le_rfl, hq, by omega⟩

theorem TasksAL.step {ts : List (Task C)} {i n : ℕ} {p p' : Task C} {h h' : Heap C} (ht : TasksAL ts n) (hi : ts[i]? = some p)
    (hs : TStep p h p' h') : TasksAL (ts.set i p') (n - 1) := by
  induction ht generalizing i with
  | nil => simp at hi
  | @cons t ts a b n ha hb hn ih =>
    cases i with
    | zero =>
      simp only [List.getElem?_cons_zero, Option.some.injEq] at hi
      subst hi
      rw [List.set_cons_zero]
      exact .cons (ha.step hs) hb (by omega)
    | succ i =>
      rw [List.getElem?_cons_succ] at hi
      rw [List.set_cons_succ]
      exact .cons ha (ih hi) (by omega)

theorem TasksAL.sound {a d : Config C} {k : ℕ} (hr : ReachIn a k d) (hf : d.Final) :
    ∀ n m, TasksAL a.cur n → TasksAL a.rest.flatten m → n + m ≤ k := by
  induction hr with
  | refl c =>
    intro n m hn hm
    have h1 := hn.done hf.1
    rw [hf.2] at hm
    have h2 := hm.done (by simp)
    omega
  | task i hi hs _ ih =>
    intro n m hn hm
    have := ih hf _ m (hn.step hi hs) hm
    omega
  | @barrier ts ph rest h k d hb _ ih =>
    intro n m hn hm
    simp only [List.flatten_cons] at hm
    obtain ⟨p, q, hp, hq, hpq⟩ := hm.split
    have := ih hf p q hp hq
    have := hn.done hb
    omega

theorem TasksAL.code {c : Code C} {n : ℕ} (h : TasksAL c.flatten n) : c.WorkAtLeast n := fun _ _ _ hr hf => by
  have := TasksAL.sound hr hf 0 n .nil h
  omega

/-- the items together make at least `n` accesses -/
def IAL (I : Items C) (n : ℕ) : Prop := TasksAL (I.flatMap Prod.fst) n

theorem IAL.mono {I : Items C} {n m : ℕ} (h : IAL I n) (hm : m ≤ n) : IAL I m := TasksAL.mono h hm

theorem IAL.append {I J : Items C} {n m : ℕ} (h : IAL I n) (h' : IAL J m) : IAL (I ++ J) (n + m) := by
  unfold IAL
  rw [List.flatMap_append]
  exact TasksAL.append h h'

theorem IAL.zero (I : Items C) : IAL I 0 := TasksAL.zero _

theorem IAL.loop {kind : LoopKind} {ts : List (Task C)} {n : ℕ} (h : TasksAL ts n) : IAL (Items.loop kind ts) n := by
  unfold IAL
  rw [items_loop]
  exact h

theorem IAL.ub {n : ℕ} : IAL ([([.ub], true)] : Items C) n :=
  TasksAL.cons (a := n) (b := 0) .ub .nil (by omega)

theorem IAL.region {I : Items C} {n : ℕ} (h : IAL I n) : TasksAL (Items.region I).flatten n := by
  rw [region_flatten]
  exact h

end

/-! ### The stages of general radix -/

variable {F C : Type} [DArith F] [CArith F C]

theorem largeFactors_mul {a b : ℕ} (ha : a ≠ 0) (hb : b ≠ 0) : largeFactors (a * b) = largeFactors a + largeFactors b := by
  unfold largeFactors
  rw [((Nat.perm_primeFactorsList_mul ha hb).filter _).sum_eq, List.filter_append, List.sum_append]

theorem largeFactors_prime {p : ℕ} (hp : p.Prime) (h7 : 7 ≤ p) : largeFactors p = p := by
  unfold largeFactors
  rw [Nat.primeFactorsList_prime hp]
  simp [h7]

theorem largeFactors_small {p : ℕ} (hp : p.Prime) (h7 : p < 7) : largeFactors p = 0 := by
  unfold largeFactors
  rw [Nat.primeFactorsList_prime hp]
  simp [h7]

theorem largeFactors_pow (k : ℕ) : largeFactors (2 ^ k) = 0 := by
  induction k with
  | zero => simp [largeFactors]
  | succ k ih => rw [pow_succ, largeFactors_mul (by positivity) (by omega), ih, largeFactors_small Nat.prime_two (by omega)]

theorem largeFactors_div {r n : ℕ} (hr : r ∣ n) (hn : n ≠ 0) : largeFactors n = largeFactors r + largeFactors (n / r) := by
  obtain ⟨m, rfl⟩ := hr
  have h0 : r ≠ 0 := by rintro rfl; simp at hn
  have h1 : m ≠ 0 := by rintro rfl; simp at hn
  rw [Nat.mul_div_cancel_left _ (by omega), largeFactors_mul h0 h1]

theorem largeFactors_le {p n : ℕ} (hp : p.Prime) (h7 : 7 ≤ p) (hd : p ∣ n) (hn : n ≠ 0) : p ≤ largeFactors n := by
  rw [largeFactors_div hd hn, largeFactors_prime hp h7]
  omega

theorem anyInner_al {k i m : ℕ} {xa wa : ℕ → Ptr} : (js : List ℕ) → (z : C) → (κ : C → Task C) → (∀ z, (κ z).AL m) →
    (anyInner C k i xa wa js z κ).AL (2 * js.length + m)
  | [], z, κ, hκ => by rw [anyInner]; exact .le (hκ z) (by simp)
  | j :: js, z, κ, hκ => by
    rw [anyInner, List.length_cons, show 2 * (js.length + 1) + m = 2 * js.length + m + 1 + 1 by ring]
    refine .load fun a => ?_
    split
    · exact .load fun w => anyInner_al js _ _ hκ
    · exact .ub

theorem anyBody_al {k : ℕ} {xa wa ya : ℕ → Ptr} {wo : Option (ℕ → Ptr)} : (is : List ℕ) →
    (anyBody C k xa wa wo ya is).AL (is.length * (2 * k + 1))
  | [] => .le (.zero _) (by simp)
  | i :: is => by
    cases wo with
    | none =>
      have := anyInner_al (C := C) (k := k) (i := i) (m := is.length * (2 * k + 1) + 1) (xa := xa) (wa := wa) (List.range k)
        (CArith.cmk (fofNat 0) (fofNat 0)) (fun z => .store (ya i).loc z (anyBody C k xa wa none ya is))
        (fun z => .store (anyBody_al is))
      rw [List.length_range] at this
      rw [List.length_cons, show (is.length + 1) * (2 * k + 1) = 2 * k + (is.length * (2 * k + 1) + 1) by ring]
      exact this
    | some w =>
      have := anyInner_al (C := C) (k := k) (i := i) (m := is.length * (2 * k + 1) + 1 + 1) (xa := xa) (wa := wa) (List.range k)
        (CArith.cmk (fofNat 0) (fofNat 0)) (fun z => .load (w i).loc fun t => .store (ya i).loc (mulpz z t) (anyBody C k xa wa (some w) ya is))
        (fun z => .load fun t => .store (anyBody_al is))
      rw [List.length_range] at this
      refine .le this ?_
      rw [List.length_cons]
      nlinarith

/-- stages of general radix -/
theorem mixAny_al {inv : Bool} {path : Path} {W : Ptr} (n : ℕ) : ∀ (r s : ℕ) (eo : Bool) (x y : Ptr), 1 < n → n % 2 = 1 →
    7 ≤ r → r % 2 = 1 → r ≤ n.minFac → IAL (mixAny C inv path r n s eo x y W) ((2 * largeFactors n) * (n * s)) := by
  induction n using Nat.strong_induction_on with
  | _ n ih =>
    intro r s eo x y hn hodd hr hro hrm
    rw [mixAny.eq_def]
    simp only
    split
    · exact IAL.ub
    · rename_i k hk
      have hkm := findK_some n hn hodd _ r k rfl (by omega) hro hrm hk
      have hpr : k.Prime := hkm ▸ Nat.minFac_prime (by omega)
      have hkn : k ∣ n := hkm ▸ Nat.minFac_dvd n
      have hk7 : 7 ≤ k := by omega
      have hsum := largeFactors_div hkn (by omega)
      rw [largeFactors_prime hpr hk7] at hsum
      split
      · rename_i he
        have h1 : TasksAL (tasks1 s fun q => anyBody C k (fun j => x + (q + s * j)) (fun a => W + mixIdx inv (n * s) (s * a)) none
            (fun i => y + (q + s * i)) (List.range k)) (s * (k * (2 * k + 1))) := by
          refine TasksAL.tasks1 ?_
          intro q _
          have := anyBody_al (C := C) (k := k) (xa := fun j => x + (q + s * j)) (wa := fun a => W + mixIdx inv (n * s) (s * a))
            (wo := none) (ya := fun i => y + (q + s * i)) (List.range k)
          rwa [List.length_range] at this
        refine ((IAL.loop h1).append (IAL.zero _)).mono ?_
        have h11 : largeFactors (k / k) = 0 := by rw [Nat.div_self (by omega)]; exact largeFactors_pow 0
        rw [hsum, ← he, h11]
        calc 2 * (k + 0) * (k * s) = s * (k * (2 * k)) := by ring
          _ ≤ s * (k * (2 * k + 1)) := Nat.mul_le_mul_left _ (Nat.mul_le_mul_left _ (by omega))
          _ ≤ _ := by omega
      · rename_i he
        split
        · exact IAL.ub
        · have hmn : n / k * (k * s) = n * s := by rw [← mul_assoc, Nat.div_mul_cancel hkn]
          have hm1 : 1 < n / k := by
            obtain ⟨m, rfl⟩ := hkn
            rw [Nat.mul_div_cancel_left _ (by omega)]
            rcases Nat.lt_or_ge 1 m with h | h
            · exact h
            · interval_cases m <;> omega
          have hmo : (n / k) % 2 = 1 := by
            by_contra hc
            have h2 : 2 ∣ n / k := by omega
            have : 2 ∣ n := h2.trans (Nat.div_dvd_of_dvd hkn)
            omega
          have hko : k % 2 = 1 := by
            by_contra hc
            have h2 : 2 ∣ k := by omega
            have : 2 ∣ n := h2.trans hkn
            omega
          have hkm' : k ≤ (n / k).minFac := by
            have : n.minFac ≤ (n / k).minFac :=
              Nat.minFac_le_of_dvd (Nat.minFac_prime (by omega)).two_le ((Nat.minFac_dvd _).trans (Nat.div_dvd_of_dvd hkn))
            omega
          have hrec := ih (n / k) (Nat.div_lt_self (by omega) (by omega)) k (k * s) (!eo) y x hm1 hmo hk7 hko hkm'
          rw [hmn] at hrec
          have hb : ∀ p q : ℕ, (anyBody C k (fun j => x + (q + s * p + n / k * s * j)) (fun a => W + mixIdx inv (n * s) (n / k * s * a))
              (some fun i => W + mixIdx inv (n * s) (i * (s * p))) (fun i => y + (q + s * p * k + s * i)) (List.range k)).AL
              (k * (2 * k + 1)) := by
            intro p q
            have := anyBody_al (C := C) (k := k) (xa := fun j => x + (q + s * p + n / k * s * j))
              (wa := fun a => W + mixIdx inv (n * s) (n / k * s * a)) (wo := some fun i => W + mixIdx inv (n * s) (i * (s * p)))
              (ya := fun i => y + (q + s * p * k + s * i)) (List.range k)
            rwa [List.length_range] at this
          have hfin : (2 * largeFactors n) * (n * s) ≤ n / k * s * (k * (2 * k + 1)) + (2 * largeFactors (n / k)) * (n * s) := by
            rw [hsum]
            calc (2 * (k + largeFactors (n / k))) * (n * s) ≤ (2 * k + 1 + 2 * largeFactors (n / k)) * (n * s) := Nat.mul_le_mul_right _ (by omega)
              _ = (2 * k + 1) * (n / k * (k * s)) + (2 * largeFactors (n / k)) * (n * s) := by rw [hmn]; ring
              _ = _ := by ring
          refine IAL.mono (IAL.append (n := n / k * s * (k * (2 * k + 1))) ?_ hrec) hfin
          cases path
          · refine IAL.loop (TasksAL.tasks2 ?_)
            intro p i _ _
            exact hb p i
          · refine IAL.loop (TasksAL.tasks1 ?_)
            intro i _
            exact hb _ _

theorem largeFactors_eight : largeFactors 8 = 0 := largeFactors_pow 3
theorem largeFactors_four : largeFactors 4 = 0 := largeFactors_pow 2

theorem mixFFT_al {inv : Bool} {path : Path} {W : Ptr} (n : ℕ) : ∀ (s : ℕ) (eo : Bool) (x y : Ptr), 1 < n →
    IAL (mixFFT C inv path n s eo x y W) ((2 * largeFactors n) * (n * s)) := by
  induction n using Nat.strong_induction_on with
  | _ n ih =>
    intro s eo x y hn
    rw [mixFFT.eq_def]
    simp only
    split
    · rename_i h
      have hs : s = 0 := by
        by_contra hc
        have := Nat.mul_le_mul (show 2 ≤ n by omega) (show 1 ≤ s by omega)
        omega
      exact (IAL.zero _).mono (by simp [hs])
    have hrec : ∀ r, 1 < r → n % r = 0 → n ≠ r → largeFactors r = 0 → ∀ I : Items C,
        IAL (I ++ mixFFT C inv path (n / r) (r * s) (!eo) y x W) ((2 * largeFactors n) * (n * s)) := by
      intro r hr hd hne hS I
      have hdv := Nat.dvd_of_mod_eq_zero hd
      have h2 := div_ge_two (by omega) hd (by omega) hne
      have hmn : n / r * (r * s) = n * s := by rw [← mul_assoc, Nat.div_mul_cancel hdv]
      have := ih (n / r) (Nat.div_lt_self (by omega) hr) (r * s) (!eo) y x (by omega)
      rw [hmn] at this
      refine ((IAL.zero I).append this).mono ?_
      rw [largeFactors_div hdv (by omega), hS, Nat.zero_add, Nat.zero_add]
    have hend : ∀ {r : ℕ} {I : Items C}, n = r → largeFactors r = 0 → IAL I ((2 * largeFactors n) * (n * s)) := by
      intro r I he hS
      rw [he, hS]
      exact (IAL.zero I).mono (by simp)
    have h2 : largeFactors 2 = 0 := largeFactors_small Nat.prime_two (by omega)
    have h3 : largeFactors 3 = 0 := largeFactors_small Nat.prime_three (by omega)
    have h5 : largeFactors 5 = 0 := largeFactors_small Nat.prime_five (by omega)
    split
    · rename_i h
      split
      · exact hend ‹_› largeFactors_eight
      · exact hrec 8 (by omega) h ‹_› largeFactors_eight _
    split
    · rename_i h
      split
      · exact hend ‹_› largeFactors_four
      · exact hrec 4 (by omega) h ‹_› largeFactors_four _
    split
    · rename_i h
      split
      · exact hend ‹_› h2
      · exact hrec 2 (by omega) h ‹_› h2 _
    split
    · rename_i h
      split
      · exact hend ‹_› h5
      · exact hrec 5 (by omega) h ‹_› h5 _
    split
    · rename_i h
      split
      · exact hend ‹_› h3
      · exact hrec 3 (by omega) h ‹_› h3 _
    · rename_i h8 h4 h2 h5 h3
      refine mixAny_al n 7 s eo x y hn (by omega) (by omega) (by omega) ?_
      by_contra hc
      have hp := Nat.minFac_prime (show n ≠ 1 by omega)
      have hd := Nat.minFac_dvd n
      have := hp.two_le
      generalize n.minFac = q at *
      have : q < 7 := by omega
      interval_cases q
      · omega
      · omega
      · exact absurd hp (by decide)
      · omega
      · exact absurd hp (by decide)

theorem mixRun_al {thr : Thr} {inv : Bool} {mode : ScaleMode} {N : ℕ} {x y W : Ptr} :
    TasksAL (mixRun C thr inv mode N x y W).flatten (2 * largeFactors N * N) := by
  unfold mixRun
  simp only
  rw [List.flatten_append]
  have h : ∀ path, IAL (mixFFT C inv path N 1 false x y W) (2 * largeFactors N * N) := by
    intro path
    rcases Nat.lt_or_ge 1 N with h | h
    · exact (mixFFT_al N 1 false x y h).mono (le_of_eq (by ring))
    · refine (IAL.zero _).mono ?_
      interval_cases N <;> simp [largeFactors]
  exact (h _).region.append (TasksAL.zero _)

theorem Algo.transform_al {o : Algo} {n : ℕ} {h : Heap C} {thr : Thr} (hr : o.Ready C thr n h) {inv : Bool} {mode : ScaleMode} {x y : Ptr} :
    TasksAL (o.transform C thr inv mode x y).flatten (2 * largeFactors n * n) := by
  unfold Algo.Ready at hr
  unfold Algo.transform
  split at hr <;> rename_i hk <;> simp only [hk]
  · obtain ⟨rfl, -⟩ := hr
    rw [largeFactors_pow, Nat.mul_zero, Nat.zero_mul]
    exact TasksAL.zero _
  · obtain ⟨rfl, -⟩ := hr
    rw [largeFactors_pow, Nat.mul_zero, Nat.zero_mul]
    exact TasksAL.zero _
  · obtain ⟨rfl, -⟩ := hr
    exact mixRun_al

theorem FFT0.call_al {o : FFT0} {n : ℕ} {h : Heap C} {thr : Thr} (hr : o.Ready C thr n h) {e : Entry} {x y : Ptr} :
    TasksAL (o.call C thr e x y).flatten (2 * largeFactors n * n) := by
  rw [FFT0.call_eq]
  unfold FFT0.obj_call
  have := hr.obj
  split at this
  · rw [this]
    exact TasksAL.cons (a := 2 * largeFactors n * n) (b := 0) .ub .nil le_rfl
  · obtain ⟨a, ha, -, -, hra⟩ := this
    rw [ha]
    exact Algo.transform_al hra

end OTFFT
