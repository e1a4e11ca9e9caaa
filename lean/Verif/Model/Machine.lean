import Verif.Res

/-!
# Model: threads of an `omp for` loop

Generic version of the execution model of `Model/Exec`: every iteration of an `omp for` loop is a
thread with a straight-line list of instructions and private registers; `step` performs one
instruction on the registers of its thread and the shared memory.  An execution is given by the list
of the thread numbers in the order in which they perform their next instruction; the end of the loop
is a barrier.
-/

namespace Verif.Mach
open Res

variable {I R M : Type}

/-- State of a thread: remaining instructions and registers. -/
structure Thr (I R : Type) where
  code : List I
  reg : R

/-- Run a code alone. -/
def runCode (step : I → R → M → Res (R × M)) : List I → R → M → Res (R × M)
  | [], r, m => ok (r, m)
  | i :: code, r, m => step i r m >>= fun t => runCode step code t.1 t.2

/-- Run the codes one after the other, each with new registers. -/
def seqAll (step : I → R → M → Res (R × M)) (r0 : R) : List (List I) → M → Res M
  | [], m => ok m
  | c :: codes, m => runCode step c r0 m >>= fun t => seqAll step r0 codes t.2

/-- Let the threads perform instructions in the order of the scheduler.  Numbers of finished or
non-existing threads are skipped. -/
def runSched (step : I → R → M → Res (R × M)) : List Nat → List (Thr I R) → M → Res (List (Thr I R) × M)
  | [], ths, m => ok (ths, m)
  | t :: sch, ths, m =>
    match ths[t]? with
    | some ⟨i :: rest, r⟩ => step i r m >>= fun x => runSched step sch (ths.set t ⟨rest, x.1⟩) x.2
    | _ => runSched step sch ths m

/-- An `omp for` loop.  `nofuel`: the scheduler did not let every thread finish. -/
def parFor (step : I → R → M → Res (R × M)) (r0 : R) (codes : List (List I)) (sch : List Nat) (m : M) : Res M := do
  let x ← runSched step sch (codes.map fun c => ⟨c, r0⟩) m
  if x.1.all (fun th => th.code.isEmpty) then ok x.2 else nofuel

/-- Concatenate the codes for the positions `lo..hi-1`. -/
def seqCode (lo hi : Nat) (f : Nat → Res (List I)) : Res (List I) :=
  forRange lo hi (fun k code => do
    let c ← f k
    ok (code ++ c)) []

/-- The threads of an `omp for (j = lo; j < hi; ++j)` loop. -/
def parCodes (lo hi : Nat) (f : Nat → Res (List I)) : Res (List (List I)) :=
  forRange lo hi (fun k codes => do
    let c ← f k
    ok (codes ++ [c])) []

/-- `for (l = 0; l < levels; ++l)` around an `omp for` over `ptr[l] .. ptr[l+1]`. -/
def levelLoop (step : I → R → M → Res (R × M)) (r0 : R) (levels : Nat) (ptr : List Nat)
    (thread : Nat → Res (List I)) (sch : Nat → List Nat) (m : M) : Res M :=
  forRange 0 levels (fun l m => do
    let lo ← rd ptr l
    let hi ← rd ptr (l + 1)
    let codes ← parCodes lo hi thread
    parFor step r0 codes (sch l) m) m

end Verif.Mach
