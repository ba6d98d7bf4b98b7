/-
Work of whole client programs.
-/
import Verif.Proof.WorkLow
import Verif.Proof.History
import Verif.Proof.Fail

namespace OTFFT

variable {C : Type}

theorem Act.RunsIn.exec {c : Code C} {w w' : World C} {k s : ℕ} {a : Unit} (h : (Act.exec c).RunsIn w k s a w') :
    ∃ d, ReachIn (c.start w.heap) k d ∧ s = 0 := by
  cases h with
  | run hr hf hk => cases hk; exact ⟨_, hr, rfl⟩

theorem ClsSpec.session_work {X : Cls C} (S : ClsSpec X) {E : Set Nat} {call setup cells : ℕ → ℕ}
    (hset : ∀ o n, (X.setup o n).WorkAtMost (setup n.toNat) (cells n.toNat))
    (hcall : ∀ {o n c h}, S.Ready o n h → S.Valid n c E h → TasksAM (X.call o c).flatten (call n))
    (ops : List (Op C X.Call)) :
    ∀ {w : World C} (o : X.Obj) (ok : Bool) (m : Nat), Owned E (S.blocks o) w →
      (ok = true → S.Ready o m w.heap) → S.ValidOps E w.heap m ops →
      ∀ k s r w', (X.session o ok ops).RunsIn w k s r w' → k ≤ accesses call setup m ops ∧ s ≤ requests cells ops := by
  induction ops with
  | nil =>
    intro w o ok m ho hr hv k s r w' h
    cases h
    exact ⟨le_rfl, le_rfl⟩
  | cons op ops ih =>
    intro w o ok m ho hr hv k s r w' h
    cases op with
    | setup n =>
      obtain ⟨⟨o1, threw⟩, w1, k1, k2, s1, s2, h1, h2, rfl, rfl⟩ := Act.RunsIn.bind (m := X.setup o n) h
      obtain ⟨e1, e2, e3⟩ := Act.wp_runs (S.setup_spec o n hv.1 ho) h1.runs
      have := hset o n _ _ _ _ _ h1
      have := ih o1 (!threw) n.toNat e1 (fun ht => e3 (by simpa using ht)) (ClsSpec.ValidOps.keeps e2.keeps _ _ hv.2) _ _ _ _ h2
      simp only [accesses, requests]
      omega
    | call c =>
      cases ok with
      | false =>
        have := ih o false m ho hr hv.2 _ _ _ _ h
        simp only [accesses, requests]
        omega
      | true =>
        obtain ⟨a, w1, k1, k2, s1, s2, h1, h2, rfl, rfl⟩ := Act.RunsIn.bind (m := Act.exec (X.call o c)) h
        obtain ⟨e1, e2, e3⟩ := Act.wp_runs (S.call_spec ho (hr rfl) hv.1) h1.runs
        obtain ⟨d, hd, rfl⟩ := h1.exec
        have := TasksAM.code (hcall (hr rfl) hv.1) _ _ _ hd
        have := ih o true m e1 (fun _ => e3) (ClsSpec.ValidOps.keeps e2 _ _ hv.2) _ _ _ _ h2
        simp only [accesses, requests]
        omega
    | store p u =>
      obtain ⟨a, w1, k1, k2, s1, s2, h1, h2, rfl, rfl⟩ := Act.RunsIn.bind (m := Act.exec [[.store p.loc u (.ret ())]]) h
      have hs := S.session (E := E) [.store p u] o ok m ho hr (w := w) (by exact ⟨hv.1, trivial⟩)
      obtain ⟨e1, e2, e3⟩ := Act.wp_runs hs (Act.Runs.bind (m := Act.exec [[.store p.loc u (.ret ())]]) h1.runs .ret)
      obtain ⟨d, hd, rfl⟩ := h1.exec
      have hst : TasksAM (([[.store p.loc u (.ret ())]] : Code C)).flatten 1 :=
        TasksAM.cons (a := 1) (b := 0) (.store (.ret (n := 0))) .nil le_rfl
      have := TasksAM.code hst _ _ _ hd
      have := ih o ok m e1 e3 (ClsSpec.ValidOps.keeps e2 _ _ hv.2) _ _ _ _ h2
      simp only [accesses, requests]
      omega

theorem ClsSpec.lifetime_work {X : Cls C} (S : ClsSpec X) {call setup cells : ℕ → ℕ} {w : World C} (hw : w.WF)
    (hcre : ∀ n, (X.create n).WorkAtMost (setup n.toNat) (cells n.toNat))
    (hset : ∀ o n, (X.setup o n).WorkAtMost (setup n.toNat) (cells n.toNat))
    (hdes : ∀ o, (X.destroy o).WorkAtMost 0 0)
    (hcall : ∀ {o n c h}, S.Ready o n h → S.Valid n c w.live h → TasksAM (X.call o c).flatten (call n))
    (n : ℤ) (ops : List (Op C X.Call)) (hn : S.SetupOK n) (hv : S.ValidOps w.live w.heap n.toNat ops) :
      ∀ k s r w', (X.lifetime n ops).RunsIn w k s r w' →
        k ≤ accesses call setup 0 (.setup n :: ops) ∧ s ≤ requests cells (.setup n :: ops) := by
  intro k s r w' h
  obtain ⟨a, w1, k1, k2, s1, s2, h1, h2, rfl, rfl⟩ := Act.RunsIn.bind (m := X.use n ops) h
  obtain ⟨b, w2, k3, k4, s3, s4, h3, h4, rfl, rfl⟩ := Act.RunsIn.bind (m := X.create n) h1
  have := hcre n _ _ _ _ _ h3
  obtain ⟨e1, e2⟩ := Act.wp_runs (S.create_spec n hn (Owned.start hw)) h3.runs
  simp only [accesses, requests]
  cases b with
  | none =>
    cases h4
    cases h2
    omega
  | some o =>
    obtain ⟨c, w3, k5, k6, s5, s6, h5, h6, rfl, rfl⟩ := Act.RunsIn.bind (m := X.session o true ops) h4
    cases h6
    obtain ⟨c', w4, k7, k8, s7, s8, h7, h8, rfl, rfl⟩ := Act.RunsIn.bind (m := X.destroy c.1) h2
    cases h8
    have := hdes _ _ _ _ _ _ h7
    have := S.session_work hset hcall ops o true n.toNat e2.1 (fun _ => e2.2) (ClsSpec.ValidOps.keeps e1.keeps _ _ hv) _ _ _ _ h5
    omega

theorem sumFactors_smooth {P : ℕ} (n : ℕ) (hn : n ≠ 0) (h : ∀ p, p.Prime → p ∣ n → p ≤ P) : sumFactors n ≤ P * Nat.log 2 n := by
  have h1 : sumFactors n ≤ (Nat.primeFactorsList n).length * P := by
    unfold sumFactors
    have := List.sum_le_card_nsmul (Nat.primeFactorsList n) P fun p hp =>
      h p (Nat.prime_of_mem_primeFactorsList hp) (Nat.dvd_of_mem_primeFactorsList hp)
    simpa using this
  have h2 : (Nat.primeFactorsList n).length ≤ Nat.log 2 n := by
    refine Nat.le_log_of_pow_le (by omega) ?_
    have hl : ∀ l : List ℕ, (∀ p ∈ l, 2 ≤ p) → 2 ^ l.length ≤ l.prod := by
      intro l
      induction l with
      | nil => intro _; simp
      | cons p l ih =>
        intro hp
        rw [List.length_cons, List.prod_cons, pow_succ, Nat.mul_comm]
        exact Nat.mul_le_mul (hp p (by simp)) (ih fun q hq => hp q (by simp [hq]))
    exact (hl _ fun p hp => (Nat.prime_of_mem_primeFactorsList hp).two_le).trans (le_of_eq (Nat.prod_primeFactorsList hn))
  calc sumFactors n ≤ (Nat.primeFactorsList n).length * P := h1
    _ ≤ Nat.log 2 n * P := Nat.mul_le_mul_right _ h2
    _ = _ := Nat.mul_comm _ _

end OTFFT
