/-! Symbolic execution of the model: values are 64-bit fingerprints of terms. Appended by trace.py to the text of
Verif/Model; not part of the proofs and not built by lake. -/

namespace OTFFT

def fp (op : UInt64) (args : List UInt64) : UInt64 :=
  args.foldl (fun h a => let h := (h ^^^ a) * 0x9E3779B97F4A7C15; h ^^^ (h >>> 29)) op

structure Sym where
  h : UInt64
  parts : Option (UInt64 × UInt64)

def Sym.cmk (a b : UInt64) : Sym := ⟨fp 13 [a, b], some (a, b)⟩
def Sym.op (o : UInt64) (as : List Sym) : Sym := ⟨fp o (as.map Sym.h), none⟩
def Sym.re (z : Sym) : UInt64 := match z.parts with | some (a, _) => a | none => fp 14 [z.h]
def Sym.im (z : Sym) : UInt64 := match z.parts with | some (_, b) => b | none => fp 15 [z.h]

instance : DArith UInt64 where
  fadd a b := fp 21 [a, b]
  fsub a b := fp 22 [a, b]
  fmul a b := fp 23 [a, b]
  fdiv a b := fp 24 [a, b]
  fneg a := fp 25 [a]
  fsqrt a := fp 26 [a]
  fcos a := fp 27 [a]
  fsin a := fp 28 [a]
  fpi := fp 29 []
  fofNat n := fp 30 [n.toUInt64]

instance : CArith UInt64 Sym where
  addpz a b := .op 1 [a, b]
  subpz a b := .op 2 [a, b]
  mulpz a b := .op 3 [a, b]
  cnjpz a := .op 4 [a]
  jxpz a := .op 5 [a]
  v8xpz a := .op 6 [a]
  w8xpz a := .op 7 [a]
  h1xpz a := .op 8 [a]
  h3xpz a := .op 9 [a]
  hfxpz a := .op 10 [a]
  hdxpz a := .op 11 [a]
  scl r a := ⟨fp 12 [r, a.h], none⟩
  cmk := Sym.cmk
  re := Sym.re
  im := Sym.im
  cmul a b := .op 16 [a, b]
  mulpd a b := .op 17 [a, b]
  expj t := ⟨fp 18 [t], none⟩

structure St where
  heap : Std.HashMap (Nat × Nat) (Option Sym)
  size : Std.HashMap Nat Nat
  next : Nat
  mallocs : Nat

partial def runTask (h : IO.Ref St) (acc : Array String) : Task Sym → IO (Array String)
  | .ret _ => pure acc
  | .ub => throw (IO.userError "UB")
  | .load l k => do
    match (← h.get).heap.get? l with
    | some (some v) => runTask h acc (k v)
    | _ => throw (IO.userError s!"UB load {l}")
  | .store l v k => do
    unless (← h.get).heap.contains l do throw (IO.userError s!"UB store {l}")
    h.modify fun s => { s with heap := s.heap.insert l (some v) }
    runTask h (acc.push s!"{l.1}:{l.2}={v.h}") k

partial def runAct {α : Type} (h : IO.Ref St) (fail : Nat) : Act Sym α → IO α
  | .ret a => pure a
  | .run c k => do
    for ph in c do
      IO.println "P"
      for t in ph do
        let s ← runTask h #[] t
        IO.println ("T " ++ " ".intercalate s.toList)
    runAct h fail k
  | .malloc n k => do
    let s ← h.get
    h.set { s with mallocs := s.mallocs + 1 }
    if s.mallocs + 1 = fail then
      IO.println s!"M {n} -"
      runAct h fail (k none)
    else
      let b := s.next
      IO.println s!"M {n} {b}"
      let mut heap := s.heap
      for i in [0:n] do heap := heap.insert (b, i) none
      h.set { s with heap := heap, size := s.size.insert b n, next := b + 1, mallocs := s.mallocs + 1 }
      runAct h fail (k (some b))
  | .free b k => do
    let s ← h.get
    match s.size.get? b with
    | none => throw (IO.userError s!"UB free {b}")
    | some n =>
      IO.println s!"F {b}"
      let mut heap := s.heap
      for i in [0:n] do heap := heap.erase (b, i)
      h.set { s with heap := heap, size := s.size.erase b }
      runAct h fail k

def entryOf (s : String) : Entry :=
  match s with
  | "fwd" => .fwd | "fwd0" => .fwd0 | "fwdu" => .fwdu | "fwdn" => .fwdn
  | "inv" => .inv | "inv0" => .inv0 | "invu" => .invu | _ => .invn
def dctEntryOf (s : String) : DctEntry :=
  match s with
  | "fwd" => .fwd | "fwd0" => .fwd0 | "fwdn" => .fwdn | "inv" => .inv | "inv0" => .inv0 | _ => .invn
def isInvName (s : String) : Bool := s.startsWith "inv"

def thrOf : List Nat → Thr
  | [w, a, b, c, d, e, f, m, s, e1, e2, ap, aw] => ⟨w, a, b, c, d, e, f, m, s, e1, e2, ap, aw⟩
  | _ => Thr.omp

def px : Ptr := ⟨1, 0⟩
def py : Ptr := ⟨2, 0⟩
def pd : Ptr := ⟨3, 0⟩
def pe : Ptr := ⟨4, 0⟩

/-- setup arguments and entry points, in order -/
def opsOf {Call : Type} (f : String → Call) (ws : List String) : List (Op Sym Call) :=
  ws.map fun w => match w.toInt? with
    | some n => .setup n
    | none => .call (f w)

def life (X : Cls Sym) (f : String → X.Call) (n : Int) (ws : List String) : Act Sym Bool :=
  X.lifetime n (opsOf f ws)

def kindOf : String → Option AlgoKind
  | "dif4" => some (.stock false .r4) | "dif8" => some (.stock false .r8) | "dif16" => some (.stock false .r16)
  | "dit4" => some (.stock true .r4) | "dit8" => some (.stock true .r8) | "dit16" => some (.stock true .r16)
  | "six" => some .six | "mixed" => some .mixed | _ => none

def kindName : Option AlgoKind → String
  | none => "none"
  | some (.stock d r) => (if d then "dit" else "dif") ++ toString r.num
  | some .six => "six"
  | some .mixed => "mixed"

def progOf (thr : Thr) (cls : String) (n : Int) (ws : List String) : Act Sym Bool :=
  match cls with
  | "complex" => life (complexFFT Sym thr) (fun w => (entryOf w, px)) n ws
  | "real" => life (realFFT Sym thr) (fun w => if isInvName w then (entryOf w, px, pd) else (entryOf w, pd, px)) n ws
  | "dct" => life (realDCT Sym thr) (fun w => (dctEntryOf w, pd)) n ws
  | "bluestein" => life (bluesteinFFT Sym thr) (fun w => (entryOf w, px)) n ws
  | "fft0" => life (rawFFT Sym thr) (fun w => (entryOf w, px, py)) n ws
  | "dct0" => life (rawDCT Sym thr) (fun w => (dctEntryOf w, pd, pe, px)) n ws
  | k => match kindOf k, ws with
    | some kind, [inv, mode] => algoOnce Sym thr kind n.toNat (inv == "1")
        (match mode with | "1" => .scale_1 | "u" => .scale_unitary | _ => .scale_length) px py
    | _, _ => .ret false

def main : IO Unit := do
  let stdin ← IO.getStdin
  repeat do
    let line := (← stdin.getLine).trimAscii.toString
    if line.isEmpty then break
    let ws := line.splitOn " "
    IO.println ("# " ++ line)
    match ws with
    | "dispatch" :: _ =>
      for k in [0:28] do
        IO.println s!"{k} {kindName (dispatch (some k))} {(logOf (2^k)).getD 99} {(logOf (2^k+1)).getD 99}"
      IO.println s!"none {kindName (dispatch none)}"
    | "thresholds" :: _ =>
      for t in [Thr.omp, Thr.single] do
        IO.println ("R " ++ ",".intercalate ([t.w, t.dif4, t.dif8, t.dif16, t.dit4, t.dit8, t.dit16, t.mixed, t.six, t.eight1,
          t.eight2, t.api, t.apiW].map toString))
    | thr :: cls :: len :: fail :: n :: rest =>
      let heap : Std.HashMap (Nat × Nat) (Option Sym) := Id.run do
        let mut m : Std.HashMap (Nat × Nat) (Option Sym) := {}
        for b in [1:5] do
          for i in [0:len.toNat!] do
            let a := fp 40 [b.toUInt64, i.toUInt64]
            m := m.insert (b, i) (some (if b ≤ 2 then ⟨a, none⟩ else Sym.cmk a (fp 30 [0])))
        return m
      let r ← IO.mkRef (⟨heap, {}, 10, 0⟩ : St)
      try
        let b ← runAct r fail.toNat! (progOf (thrOf ((thr.splitOn ",").map String.toNat!)) cls n.toInt! rest)
        IO.println s!"E {b} {(← r.get).size.size}"
      catch e => IO.println s!"X {e}"
    | _ => IO.println "?"

end OTFFT

def main : IO Unit := OTFFT.main
