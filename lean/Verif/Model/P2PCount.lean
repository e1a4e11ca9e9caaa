import Verif.Model.P2P

/-!
# Model: `getNumberOfP2P` of `SpTrsv_LL_SpMP` (example/SpTRSV_runtime.h:1611-1623)

The sum is a `double` in the code; it is exact for numbers up to 2^53, and a natural number here.
-/

namespace Verif.P2P
open Res

/-- `getNumberOfP2P`, SpTRSV_runtime.h:1611-1623. -/
def numberOfP2P (S : TaskGraph) (nthreads : Nat) : Res Nat :=
  forRange 0 nthreads (fun tid edges => do
    let lo ← rd S.threadBoundaries tid
    let hi ← rd S.threadBoundaries (tid + 1)
    forRange lo hi (fun task edges => do
      let np ← rd S.nparents task
      ok (edges + np)) edges) 0

end Verif.P2P
