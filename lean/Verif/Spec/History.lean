/-
Histories of one object, and what a single call may touch.
-/
import Verif.Model.Api
import Verif.Spec.Memory

namespace OTFFT

variable {C : Type}

/-- Values of type `int` that the complex and the real transforms accept as length argument of `setup` and of the
constructor: `n + 1` must not overflow. -/
def intLen (n : Int) : Prop := -2 ^ 31 ≤ n ∧ n < 2 ^ 31 - 1

/-- the same for the discrete cosine transform: moreover `2 * n` must not overflow -/
def dctLen (n : Int) : Prop := -2 ^ 31 ≤ n ∧ n < 2 ^ 30

/-- the same for Bluestein's algorithm: `L *= 2`, which runs until `L ≥ 2 * n`, must not overflow -/
def blueLen (n : Int) : Prop := n ≤ 2 ^ 29

/-- length of the object after the operations, when it was constructed with length `m` (a negative argument counts
as length 0) -/
def lastLen {α : Type} : Nat → List (Op C α) → Nat
  | m, [] => m
  | _, .setup n :: ops => lastLen n.toNat ops
  | m, .call _ :: ops => lastLen m ops
  | m, .store _ _ :: ops => lastLen m ops

/-- if the operation is a `setup`, it has a length that is not negative -/
def Op.lenNat {Call : Type} : Op C Call → Prop
  | .setup n => 0 ≤ n
  | _ => True

/-- A client program that respects the preconditions: `setup` gets an accepted length, every call has
arguments that are fine for the length the object has at that point, every assignment goes to an
allocated cell of the client's own memory. (The client's arrays exist when the program starts, and
the arrays it passes as input are initialised then.) -/
def ValidOps {Call : Type} (setupOK : Int → Prop) (callOK : Nat → Call → Heap C → Prop) (w : World C) :
    Nat → List (Op C Call) → Prop
  | _, [] => True
  | _, .setup n :: ops => setupOK n ∧ ValidOps setupOK callOK w n.toNat ops
  | m, .call c :: ops => callOK m c w.heap ∧ ValidOps setupOK callOK w m ops
  | m, .store p _ :: ops => w.heap p.loc ≠ none ∧ ValidOps setupOK callOK w m ops

/-- `x[0..n)` holds values and `n` is a length the complex transforms handle -/
def complexOK (n : Nat) (c : Entry × Ptr) (h : Heap C) : Prop := ValidLen n ∧ Filled h c.2 n

/-- number of cells of its first argument a real transform reads: all `n` (forward) or
`x[0], …, x[n/2]` (inverse) -/
def realNeed (e : Entry) (n : Nat) : Nat :=
  match e with
  | .fwd | .fwd0 | .fwdu | .fwdn => n
  | .inv | .inv0 | .invu | .invn => n / 2 + 1

/-- both arrays have `n` cells and do not overlap, the input is initialised -/
def realOK (n : Nat) (c : Entry × Ptr × Ptr) (h : Heap C) : Prop :=
  RealLen n ∧ Filled h c.2.1 (realNeed c.1 n) ∧ Alloc h c.2.1 n ∧ Alloc h c.2.2 n ∧ Sep c.2.1 n c.2.2 n

def dctOK (n : Nat) (c : DctEntry × Ptr) (h : Heap C) : Prop := RealLen n ∧ Filled h c.2 n

def blueOK (n : Nat) (c : Entry × Ptr) (h : Heap C) : Prop := 1 ≤ n ∧ n ≤ 2 ^ 29 ∧ Filled h c.2 n

/-- `FFT0`: `x[0..n)` holds values, the work area `y[0..n)` exists (it need not be initialised) and does not
overlap `x` -/
def rawFFTOK (n : Nat) (c : Entry × Ptr × Ptr) (h : Heap C) : Prop :=
  ValidLen n ∧ Filled h c.2.1 n ∧ Alloc h c.2.2 n ∧ Sep c.2.1 n c.2.2 n

/-- `DCT0`: `x[0..n)` holds values, the work areas `y[0..n)` and `z[0..n)` exist; no overlap -/
def rawDCTOK (n : Nat) (c : DctEntry × Ptr × Ptr × Ptr) (h : Heap C) : Prop :=
  RealLen n ∧ Filled h c.2.1 n ∧ Alloc h c.2.2.1 n ∧ Alloc h c.2.2.2 n ∧
    Sep c.2.1 n c.2.2.1 n ∧ Sep c.2.1 n c.2.2.2 n ∧ Sep c.2.2.1 n c.2.2.2 n

/-- `o` in memory `w` is what some valid history of one object, started in memory `w0`, leaves; the last
`setup` (or the constructor) did not throw and was for length `n`. -/
def After (X : Cls C) (setupOK : Int → Prop) (callOK : Nat → X.Call → Heap C → Prop) (w0 : World C) (n : Nat)
    (o : X.Obj) (w : World C) : Prop :=
  ∃ (n0 : Int) (ops : List (Op C X.Call)), setupOK n0 ∧ ValidOps setupOK callOK w0 n0.toNat ops ∧
    lastLen n0.toNat ops = n ∧
    (X.use n0 ops).Runs w0 (some (o, true)) w

/-- Every execution from this configuration, whatever the schedule, reaches undefined behaviour. -/
inductive AlwaysUB : Config C → Prop where
  | now {c : Config C} : c.UB → AlwaysUB c
  | later {c : Config C} : (∃ d, CStep c d) → (∀ d, CStep c d → AlwaysUB d) → AlwaysUB c

/-- Under every schedule the code has no undefined behaviour, terminates, reads only in `R` and writes only
in `W`. -/
def Confined (c : Code C) (h : Heap C) (R W : Set Loc) : Prop :=
  AllSched (fun _ => True) (c.start h) ∧
  ∀ d, Reach (c.start h) d → ∀ t ∈ d.cur, ∀ l b, Prog.access t = some (l, b) →
    if b = true then l ∈ W else l ∈ R

/-- Every schedule of the parallel loops, and the execution of all iterations in program order by one
thread, ends (without undefined behaviour) in the heap `h'`. -/
def Deterministic (c : Code C) (h h' : Heap C) : Prop :=
  AllSched (fun k => k = h') (c.start h) ∧ AllSched (fun k => k = h') (Code.start [[c.toProg]] h)

end OTFFT
