/-
OpenMP work-sharing loops with and without `nowait`.
-/
import Verif.Model.Mem

namespace OTFFT

/-- The work-sharing constructs a piece of code goes through, in order: the iterations, and
whether the construct ends with a barrier. (e.g. src/otfft_avxdif4omp.h:36, 147) -/
abbrev Items (C : Type) := List (List (Task C) × Bool)

/-- How a loop is annotated. (src/otfft_avxdif4.h:40 (none), src/otfft_avxdif4omp.h:36 and 147) -/
inductive LoopKind where
  /-- no pragma -/
  | serial
  /-- `#pragma omp for schedule(static)` -/
  | omp
  /-- `#pragma omp for schedule(static) nowait` -/
  | ompNowait
deriving DecidableEq

/-- A loop over the given iterations. (e.g. src/otfft_avxdif4omp.h:36-65, 147-160) -/
def Items.loop {C : Type} : LoopKind → List (Task C) → Items C
  | .serial, ts => ts.map fun t => ([t], true)
  | .omp, ts => [(ts, true)]
  | .ompNowait, ts => [(ts, false)]

/-- A parallel region (`#pragma omp parallel`, implicit barrier at its end), or plain serial code:
a construct without barrier runs concurrently with the next one.  Simplification (sound
over-approximation): all iterations of the two constructs may interleave, although iterations given
to the same thread stay in order. (e.g. src/otfft_avxdif4omp.h:509) -/
def Items.region {C : Type} : Items C → Code C
  | [] => []
  | (ts, true) :: r => ts :: Items.region r
  | (ts, false) :: r =>
    match Items.region r with
    | [] => [ts]
    | ph :: c => (ts ++ ph) :: c

end OTFFT
