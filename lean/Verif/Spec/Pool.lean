/-
Which client programs respect the preconditions of the API.
-/
import Verif.Model.Pool
import Verif.Spec.History

namespace OTFFT

variable {F C : Type} [DArith F] [CArith F C] {thr : Thr}

/-- lengths `setup` and the constructor accept -/
def Kind.setupOK : Kind → Int → Prop
  | .bluestein, n => blueLen n
  | .dct, n => dctLen n
  | .dct0, n => dctLen n
  | _, n => intLen n

/-- the arguments of a call are fine for an object of length `n` -/
def Kind.callOK : (k : Kind) → Nat → (k.cls C thr).Call → Heap C → Prop
  | .complex, n, c, h => complexOK n c h
  | .real, n, c, h => realOK n c h
  | .dct, n, c, h => dctOK n c h
  | .bluestein, n, c, h => blueOK n c h
  | .fft0, n, c, h => rawFFTOK n c h
  | .dct0, n, c, h => rawDCTOK n c h

/-- all cells of the arrays passed to the call -/
def Kind.arrays : (k : Kind) → Nat → (k.cls C thr).Call → Set Loc
  | .complex, n, c => let c : Entry × Ptr := c; Region c.2 n
  | .real, n, c => let c : Entry × Ptr × Ptr := c; Region c.2.1 n ∪ Region c.2.2 n
  | .dct, n, c => let c : DctEntry × Ptr := c; Region c.2 n
  | .bluestein, n, c => let c : Entry × Ptr := c; Region c.2 n
  | .fft0, n, c => let c : Entry × Ptr × Ptr := c; Region c.2.1 n ∪ Region c.2.2 n
  | .dct0, n, c => let c : DctEntry × Ptr × Ptr × Ptr := c; Region c.2.1 n ∪ Region c.2.2.1 n ∪ Region c.2.2.2 n

/-- the cells the call may change: everything except the input of a forward real transform -/
def Kind.writes : (k : Kind) → Nat → (k.cls C thr).Call → Set Loc
  | .real, n, c => let c : Entry × Ptr × Ptr := c
      match c.1 with
      | .fwd | .fwd0 | .fwdu | .fwdn => Region c.2.2 n
      | .inv | .inv0 | .invu | .invn => Region c.2.1 n ∪ Region c.2.2 n
  | k, n, c => k.arrays n c

/-- which function is called: the names of the member functions of the class -/
def Kind.Fn : Kind → Type
  | .complex | .real | .bluestein | .fft0 => Entry
  | .dct | .dct0 => DctEntry

def Kind.fn : (k : Kind) → (k.cls C thr).Call → k.Fn
  | .complex, c => let c : Entry × Ptr := c; c.1
  | .real, c => let c : Entry × Ptr × Ptr := c; c.1
  | .dct, c => let c : DctEntry × Ptr := c; c.1
  | .bluestein, c => let c : Entry × Ptr := c; c.1
  | .fft0, c => let c : Entry × Ptr × Ptr := c; c.1
  | .dct0, c => let c : DctEntry × Ptr × Ptr × Ptr := c; c.1

/-- the input array -/
def Kind.input : (k : Kind) → (k.cls C thr).Call → Ptr
  | .complex, c => let c : Entry × Ptr := c; c.2
  | .real, c => let c : Entry × Ptr × Ptr := c; c.2.1
  | .dct, c => let c : DctEntry × Ptr := c; c.2
  | .bluestein, c => let c : Entry × Ptr := c; c.2
  | .fft0, c => let c : Entry × Ptr × Ptr := c; c.2.1
  | .dct0, c => let c : DctEntry × Ptr × Ptr × Ptr := c; c.2.1

/-- the number of cells of the input array that matter -/
def Kind.need : (k : Kind) → Nat → (k.cls C thr).Call → Nat
  | .real, n, c => let c : Entry × Ptr × Ptr := c; realNeed c.1 n
  | _, n, _ => n

/-- the array that holds the result -/
def Kind.output : (k : Kind) → (k.cls C thr).Call → Ptr
  | .real, c => let c : Entry × Ptr × Ptr := c; c.2.2
  | k, c => k.input c

/-- the cells that hold the result -/
def Kind.result (k : Kind) (n : Nat) (c : (k.cls C thr).Call) : Set Loc := Region (k.output c) n

/-- Classes without a work area of their own: one object may be used by several threads at a time. -/
def Kind.sharable : Kind → Bool
  | .real | .fft0 | .dct0 => true
  | .complex | .dct | .bluestein => false

open Classical in
/-- `h` with the cells `R` initialised -/
noncomputable def Heap.touch [Inhabited C] (h : Heap C) (R : Set Loc) : Heap C :=
  fun l => if l ∈ R then some (some default) else h l

/-- What a client knows about its variables: nothing (null), or the class and the argument of the last `setup`
(0 if it was negative, `none`: it threw). -/
abbrev Known := Nat → Option (Kind × Option Nat)

def Known.set (m : Known) (s : Nat) (v : Option (Kind × Option Nat)) : Known := fun t => if t = s then v else m t

/-- The client program respects the preconditions of the API, in all its branches. `P` are the cells it may write,
`Rd` cells it may only read, `sh` what it knows about the shared objects; the heap says which of the cells are
allocated and which are initialised at this point (the values are not used). -/
def Client.OK [Inhabited C] (P Rd : Set Loc) (sh : Known) : Client C thr → Known → Heap C → Prop
  | .done, _, _ => True
  | .new s k n ok threw, m, h => m s = none ∧ k.setupOK n ∧ ok.OK P Rd sh (m.set s (some (k, some n.toNat))) h ∧
      threw.OK P Rd sh m h
  | .setup s n ok threw, m, h => ∃ k o, m s = some (k, o) ∧ k.setupOK n ∧
      ok.OK P Rd sh (m.set s (some (k, some n.toNat))) h ∧ threw.OK P Rd sh (m.set s (some (k, none))) h
  | .call s k c next, m, h => ∃ n, m s = some (k, some n) ∧ k.callOK n c h ∧ k.arrays n c ⊆ P ∪ Rd ∧
      k.writes n c ⊆ P ∧ next.OK P Rd sh m (h.touch (k.result n c))
  | .shared s k c next, m, h => ∃ n, sh s = some (k, some n) ∧ k.sharable = true ∧ k.callOK n c h ∧
      k.arrays n c ⊆ P ∪ Rd ∧ k.writes n c ⊆ P ∧ next.OK P Rd sh m (h.touch (k.result n c))
  | .delete s next, m, h => next.OK P Rd sh (m.set s none) h
  | .store p v next, m, h => p.loc ∈ P ∧ h p.loc ≠ none ∧ next.OK P Rd sh m (h.set p.loc v)

/-- what a client knows about these variables -/
def Vars.known (σ : Vars C thr) : Known := fun s => (σ s).map fun v => (v.kind, v.len)

/-- What a client program knows about its variables at the end if nothing throws. -/
def Client.noThrow : Client C thr → Known → Known
  | .done, m => m
  | .new s k n ok _, m => ok.noThrow (m.set s (some (k, some n.toNat)))
  | .setup s n ok _, m => ok.noThrow (m.set s ((m s).map fun v => (v.1, some n.toNat)))
  | .call _ _ _ next, m => next.noThrow m
  | .shared _ _ _ next, m => next.noThrow m
  | .delete s next, m => next.noThrow (m.set s none)
  | .store _ _ next, m => next.noThrow m

/-- No length is negative, as long as nothing throws. -/
def Client.lenNat : Client C thr → Prop
  | .done => True
  | .new _ _ n ok _ => 0 ≤ n ∧ ok.lenNat
  | .setup _ n ok _ => 0 ≤ n ∧ ok.lenNat
  | .call _ _ _ next => next.lenNat
  | .shared _ _ _ next => next.lenNat
  | .delete _ next => next.lenNat
  | .store _ _ next => next.lenNat

/-- The client's cells `P` and `Rd` are in blocks of the client, and the program respects the preconditions when it
starts in memory `w0` without any object. -/
structure Client.Valid [Inhabited C] (p : Client C thr) (P Rd : Set Loc) (w0 : World C) : Prop where
  wf : w0.WF
  cells : ∀ l ∈ P ∪ Rd, l.1 ∈ w0.live
  ok : p.OK P Rd (fun _ => none) (fun _ => none) w0.heap

/-- `σ` and `w` are the variables and the memory after an execution of some client program that respects the
preconditions and was started in memory `w0` without any object. -/
def AfterClient [Inhabited C] (w0 : World C) (σ : Vars C thr) (w : World C) : Prop :=
  ∃ (p : Client C thr) (P Rd : Set Loc), p.Valid P Rd w0 ∧ (p.run Vars.empty Vars.empty).Runs w0 σ w

end OTFFT
