/-
Executions in which allocation fails.
-/
import Verif.Proof.Limits

namespace OTFFT

set_option linter.unusedSectionVars false

variable {C : Type}

/-- the result of the execution in which no `malloc` succeeds -/
def Act.onFail {α : Type} : Act C α → α
  | .ret a => a
  | .run _ k => k.onFail
  | .malloc _ k => (k none).onFail
  | .free _ k => k.onFail

theorem Act.onFail_bind {α β : Type} (m : Act C α) (f : α → Act C β) :
    (m >>= f).onFail = (f m.onFail).onFail := by
  show (m.bind f).onFail = _
  induction m with
  | ret a => rfl
  | run c k ih => exact ih
  | malloc n k ih => exact ih none
  | free b k ih => exact ih

theorem Act.wp_exists_fail {α : Type} {m : Act C α} {Q : α → World C → Prop} {w : World C}
    (h : m.wp Q w) : ∃ w', m.Runs w m.onFail w' ∧ Q m.onFail w' := by
  induction m generalizing w with
  | ret a => exact ⟨w, .ret, h⟩
  | run c k ih =>
    obtain ⟨d, hr, hf, hq⟩ := AllSched.terminates h
    obtain ⟨w', hw, hq⟩ := ih hq
    exact ⟨w', .run hr hf hw, hq⟩
  | malloc n k ih =>
    obtain ⟨w', hw, hq⟩ := ih none h.1
    exact ⟨w', .mallocFail hw, hq⟩
  | free b k ih =>
    obtain ⟨w', hw, hq⟩ := ih h.2
    exact ⟨w', .free h.1 hw, hq⟩

variable {F : Type} [DArith F] [CArith F C] {thr : Thr}

theorem dispatch_ne_none {n : Nat} (hn : n ≠ 1) : ∃ k, dispatch (logOf n) = some k := by
  cases h : logOf n with
  | none => exact ⟨_, rfl⟩
  | some k =>
    have := logOf_some h
    have hk : k ≠ 0 := by rintro rfl; exact hn (by simpa using this)
    unfold dispatch
    split <;> first | exact ⟨_, rfl⟩ | (rename_i e; simp at e; exact absurd e hk)

theorem FFT0.setup_onFail (o : FFT0) {n : Nat} (hn : n ≠ 1) :
    (o.setup C thr n).onFail = (⟨none, n, logOf n⟩, true) := by
  unfold FFT0.setup
  rw [Int.toNat_natCast]
  obtain ⟨k, hk⟩ := dispatch_ne_none hn
  rw [hk, Act.onFail_bind]
  rfl

theorem FFT.setup_onFail (o : FFT) {n : Nat} (hn : n ≠ 1) :
    (o.setup C thr n).onFail = ({ o with fft := ⟨none, n, logOf n⟩ }, true) := by
  unfold FFT.setup
  rw [Act.onFail_bind, FFT0.setup_onFail o.fft hn]
  rfl

theorem RFFT.setup_onFail (o : RFFT) {n : Nat} (hn : n / 2 ≠ 1) :
    (o.setup C thr n).onFail = ({ o with N := n, fft := ⟨none, n / 2, logOf (n / 2)⟩ }, true) := by
  unfold RFFT.setup
  simp only [Int.toNat_natCast, show ((n : Int)).tdiv 2 = ((n / 2 : Nat) : Int) by rw [Int.tdiv_eq_ediv_of_nonneg (by omega)]; omega]
  rw [Act.onFail_bind, FFT0.setup_onFail _ hn]
  rfl

theorem DCT0.setup_onFail (o : DCT0) {n : Nat} (hn : n / 2 ≠ 1) :
    (o.setup C thr n).onFail =
      ({ o with N := n, rfft := { o.rfft with N := n, fft := ⟨none, n / 2, logOf (n / 2)⟩ } }, true) := by
  unfold DCT0.setup
  simp only
  rw [Act.onFail_bind, RFFT.setup_onFail _ hn]
  rfl

theorem DCT.setup_onFail (o : DCT) {n : Nat} (hn : n / 2 ≠ 1) :
    (o.setup C thr n).onFail =
      ({ o with N := n, dct := { o.dct with N := n, rfft := { o.dct.rfft with N := n, fft := ⟨none, n / 2, logOf (n / 2)⟩ } } },
        true) := by
  unfold DCT.setup
  simp only
  rw [Act.onFail_bind, DCT0.setup_onFail _ hn]
  rfl

theorem Bluestein.setup_onFail (o : Bluestein) {n : Nat} (hn : 2 ≤ n) (hn29 : n ≤ 2 ^ 29) :
    ∃ L, (o.setup C thr n).onFail = ({ o with N := n, L := L, fft := { o.fft with fft := ⟨none, L, logOf L⟩ } }, true) := by
  obtain ⟨L, hL⟩ := blueLoop_some (n := n) hn29
  refine ⟨L, ?_⟩
  have h1 : L ≠ 1 := by have := (blueLoop_valid hn hL).1.two; omega
  unfold Bluestein.setup
  rw [if_neg (by omega)]
  unfold Bluestein.setupPos
  rw [Int.toNat_natCast, if_neg (by omega), hL]
  simp only
  rw [Act.onFail_bind, FFT.setup_onFail _ h1]
  rfl

/-! ### transforms without an algorithm object -/

theorem FFT0.call_null {o : FFT0} (h : o.obj = none) (e : Entry) (x y : Ptr) : (o.call C thr e x y).Doomed := by
  rw [FFT0.call_eq]
  unfold FFT0.obj_call
  rw [h]
  exact crash_doomed

theorem RFFT.call_null {o : RFFT} (h : o.fft.obj = none) (hn : 2 ≤ o.N) (e : Entry) (x y : Ptr) :
    (o.call C thr e x y).Doomed := by
  rw [RFFT.call_eq]
  cases he : e.isInv with
  | false =>
    simp only [Bool.false_eq_true, if_false]
    unfold RFFT.fwdWith
    simp only
    rw [if_neg (by omega), if_neg (by omega)]
    exact .left (.left (.left (.right (FFT0.call_null h _ _ _))))
  | true =>
    simp only [if_true]
    unfold RFFT.invWith
    simp only
    rw [if_neg (by omega), if_neg (by omega)]
    exact .left (.right (FFT0.call_null h _ _ _))

theorem DCT.call_null {o : DCT} (h : o.dct.rfft.fft.obj = none) (hn : 2 ≤ o.dct.N) (hn' : 2 ≤ o.dct.rfft.N)
    (e : DctEntry) (x : Ptr) : (o.call C thr e x).Doomed := by
  rw [DCT.call_eq]
  cases he : e.isInv with
  | false =>
    simp only [Bool.false_eq_true, if_false]
    unfold DCT0.fwdWith
    simp only
    rw [if_neg (by omega)]
    exact .left (.right (RFFT.call_null h hn' _ _ _))
  | true =>
    simp only [if_true]
    unfold DCT0.invWith
    simp only
    rw [if_neg (by omega)]
    exact .left (.right (RFFT.call_null h hn' _ _ _))

theorem Bluestein.call_null {o : Bluestein} (h : o.fft.fft.obj = none) (hn : 2 ≤ o.N) (e : Entry) (x : Ptr) :
    (o.call C thr e x).Doomed := by
  rw [Bluestein.call_eq]
  unfold Bluestein.run
  simp only
  rw [if_neg (by omega)]
  exact .left (.right (FFT0.call_null h _ _ _))

/-! ### continuing a history -/

theorem Act.bind_assoc {α β γ : Type} (m : Act C α) (f : α → Act C β) (g : β → Act C γ) :
    (m.bind f).bind g = m.bind fun a => (f a).bind g := by
  induction m with
  | ret a => rfl
  | run c k ih => simp only [Act.bind, ih]
  | malloc n k ih => simp only [Act.bind, ih]
  | free b k ih => simp only [Act.bind, ih]

theorem Act.Runs.bind {α β : Type} {m : Act C α} {f : α → Act C β} {w w1 w2 : World C} {a : α} {b : β}
    (h1 : m.Runs w a w1) (h2 : (f a).Runs w1 b w2) : (m.bind f).Runs w b w2 := by
  induction h1 with
  | ret => exact h2
  | run hr hf _ ih => exact .run hr hf (ih h2)
  | mallocFail _ ih => exact .mallocFail (ih h2)
  | mallocOk b hb hl _ ih => exact .mallocOk b hb hl (ih h2)
  | free hb _ ih => exact .free hb (ih h2)

theorem Act.Runs.of_bind {α β : Type} {m : Act C α} {f : α → Act C β} {w w2 : World C} {b : β}
    (h : (m.bind f).Runs w b w2) : ∃ a w1, m.Runs w a w1 ∧ (f a).Runs w1 b w2 := by
  induction m generalizing w with
  | ret a => exact ⟨a, w, .ret, h⟩
  | run c k ih =>
    cases h with
    | run hr hf h => obtain ⟨a, w1, h1, h2⟩ := ih h; exact ⟨a, w1, .run hr hf h1, h2⟩
  | malloc n k ih =>
    cases h with
    | mallocFail h => obtain ⟨a, w1, h1, h2⟩ := ih _ h; exact ⟨a, w1, .mallocFail h1, h2⟩
    | mallocOk b hb hl h => obtain ⟨a, w1, h1, h2⟩ := ih _ h; exact ⟨a, w1, .mallocOk b hb hl h1, h2⟩
  | free b k ih =>
    cases h with
    | free hb h => obtain ⟨a, w1, h1, h2⟩ := ih h; exact ⟨a, w1, .free hb h1, h2⟩

theorem Cls.session_append (X : Cls C) (ops2 : List (Op C X.Call)) : ∀ (ops1 : List (Op C X.Call)) (o : X.Obj) (ok : Bool),
    X.session o ok (ops1 ++ ops2) = (X.session o ok ops1).bind fun r => X.session r.1 r.2 ops2 := by
  intro ops1
  induction ops1 with
  | nil => intro o ok; rfl
  | cons op ops ih =>
    intro o ok
    cases op with
    | setup n =>
      show (X.setup o n).bind (fun r => X.session r.1 (!r.2) (ops ++ ops2)) =
        ((X.setup o n).bind fun r => X.session r.1 (!r.2) ops).bind _
      rw [Act.bind_assoc]
      simp only [ih]
    | call c =>
      show (if ok = true then (Act.exec (X.call o c)).bind (fun _ => X.session o ok (ops ++ ops2)) else X.session o ok (ops ++ ops2)) =
        (if ok = true then (Act.exec (X.call o c)).bind (fun _ => X.session o ok ops) else X.session o ok ops).bind _
      split
      · rw [Act.bind_assoc]; simp only [ih]
      · exact ih o ok
    | store p v =>
      show (Act.exec _).bind (fun _ => X.session o ok (ops ++ ops2)) = ((Act.exec _).bind fun _ => X.session o ok ops).bind _
      rw [Act.bind_assoc]
      simp only [ih]

theorem ValidOps.append {Call : Type} {setupOK : Int → Prop} {callOK : Nat → Call → Heap C → Prop} {w : World C}
    {ops2 : List (Op C Call)} : ∀ (ops1 : List (Op C Call)) (m : Nat), ValidOps setupOK callOK w m ops1 →
      ValidOps setupOK callOK w (lastLen m ops1) ops2 → ValidOps setupOK callOK w m (ops1 ++ ops2) := by
  intro ops1
  induction ops1 with
  | nil => intro m _ h; exact h
  | cons op ops ih =>
    intro m h1 h2
    cases op with
    | setup n => exact ⟨h1.1, ih n.toNat h1.2 h2⟩
    | call c => exact ⟨h1.1, ih m h1.2 h2⟩
    | store p v => exact ⟨h1.1, ih m h1.2 h2⟩

theorem lastLen_append {Call : Type} (ops2 : List (Op C Call)) : ∀ (ops1 : List (Op C Call)) (m : Nat),
    lastLen m (ops1 ++ ops2) = lastLen (lastLen m ops1) ops2 := by
  intro ops1
  induction ops1 with
  | nil => intro m; rfl
  | cons op ops ih => intro m; cases op <;> exact ih _

/-- a `setup` that threw, then one that did not: a history like any other -/
theorem After.setup_again {X : Cls C} {setupOK : Int → Prop} {callOK : Nat → X.Call → Heap C → Prop} {w0 w w1 w2 : World C}
    {m : Nat} {n1 n2 : Int} {o o1 o2 : X.Obj} {thrown : Bool} (ha : After X setupOK callOK w0 m o w) (h1 : setupOK n1) (h2 : setupOK n2)
    (r1 : (X.setup o n1).Runs w (o1, thrown) w1) (r2 : (X.setup o1 n2).Runs w1 (o2, false) w2) :
    After X setupOK callOK w0 n2.toNat o2 w2 := by
  obtain ⟨n0, ops, hn, hv, hl, hr⟩ := ha
  refine ⟨n0, ops ++ [.setup n1, .setup n2], hn, ValidOps.append ops n0.toNat hv (ops2 := [.setup n1, .setup n2]) (by exact ⟨h1, h2, trivial⟩), by rw [lastLen_append]; rfl, ?_⟩
  obtain ⟨r, w', hc, hs⟩ := Act.Runs.of_bind (m := X.create n0) (show ((X.create n0).bind _).Runs w0 _ w from hr)
  refine Act.Runs.bind (m := X.create n0) hc ?_
  cases r with
  | none => cases hs
  | some o' =>
    obtain ⟨s, w'', hs1, hs2⟩ := Act.Runs.of_bind (m := X.session o' true ops) hs
    cases hs2
    refine Act.Runs.bind (m := X.session o' true _) (a := (o2, true)) (w1 := w2) ?_ .ret
    rw [Cls.session_append]
    refine Act.Runs.bind hs1 ?_
    refine Act.Runs.bind (m := X.setup o n1) r1 ?_
    exact Act.Runs.bind (m := X.setup o1 n2) r2 .ret

end OTFFT
