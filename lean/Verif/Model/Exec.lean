import Verif.Res
import Verif.Spec.Mat
import Verif.Spec.Sched

/-!
# Models of the triangular solvers (`example/sptrsv_src/sptrsv.cpp`, `executor.cpp`)

The serial solver is a bounds-checked imperative loop on the array `x`.  In the parallel solvers
every iteration of an `omp for` loop is a thread; a thread is the straight-line
sequence of the loads and stores of `x` it performs (all other arrays are read-only, so
which locations a thread touches does not depend on the other threads).  An
execution is given by a *scheduler*: the list of thread numbers in the order in which they
perform their next load or store.  The end of an `omp for` loop is a barrier.
-/

namespace Verif.Exec
open Res

variable {V : Type _}

/-- sptrsv.cpp:14-18, body of the row loop: `for (j = Lp[i]; j < Lp[i+1]-1; j++)
x[i] -= Lx[j]*x[Li[j]];  x[i] /= Lx[Lp[i+1]-1];`. -/
def serialRow (A : Arith V) (Lp Li : List Nat) (Lx : List V) (i : Nat) (x : List V) :
    Res (List V) := do
  let lo ← rd Lp i
  let hi ← rd Lp (i + 1)
  let x ← forRange lo (hi - 1) (fun j x => do
    let xi ← rd x i
    let l ← rd Lx j
    let c ← rd Li j
    let xc ← rd x c
    wr x i (A.upd xi l xc)) x
  let xi ← rd x i
  let d ← rdZ Lx ((hi : Int) - 1)
  wr x i (A.dv xi d)

/-- `sptrsv_csr(n, Lp, Li, Lx, x)`, sptrsv.cpp:12-20. -/
def sptrsvCsr (A : Arith V) (n : Nat) (Lp Li : List Nat) (Lx : List V) (x : List V) :
    Res (List V) :=
  forRange 0 n (serialRow A Lp Li Lx) x

/-! ### Threads -/

/-- One memory access of a solver thread with the arithmetic attached to a store:
`ld1 a`: `r1 = x[a]`; `ld2 a`: `r2 = x[a]`; `sub a l`: `x[a] = r1 - l*r2`;
`div a d`: `x[a] = r1 / d`. -/
inductive Instr (V : Type _) where
  | ld1 (a : Nat)
  | ld2 (a : Nat)
  | sub (a : Nat) (l : V)
  | div (a : Nat) (d : V)
deriving DecidableEq, Repr

/-- The location written by an access, if any. -/
def Instr.writes : Instr V → List Nat
  | .ld1 _ => []
  | .ld2 _ => []
  | .sub a _ => [a]
  | .div a _ => [a]

/-- The location touched (read or written) by an access. -/
def Instr.addr : Instr V → Nat
  | .ld1 a => a
  | .ld2 a => a
  | .sub a _ => a
  | .div a _ => a

/-- The locations written by a code. -/
def writes (code : List (Instr V)) : List Nat := code.flatMap Instr.writes

/-- The locations read or written by a code. -/
def touched (code : List (Instr V)) : List Nat := code.map Instr.addr

/-- Registers of a thread (`none`: not loaded yet) and the shared array. -/
structure Cpu (V : Type _) where
  r1 : Option V
  r2 : Option V
  mem : List V

/-- Perform one access. -/
def Instr.exec (A : Arith V) (c : Cpu V) : Instr V → Res (Cpu V)
  | .ld1 a => do let v ← rd c.mem a; pure { c with r1 := some v }
  | .ld2 a => do let v ← rd c.mem a; pure { c with r2 := some v }
  | .sub a l =>
    match c.r1, c.r2 with
    | some v, some w => do let m ← wr c.mem a (A.upd v l w); pure { c with mem := m }
    | _, _ => ub
  | .div a d =>
    match c.r1 with
    | some v => do let m ← wr c.mem a (A.dv v d); pure { c with mem := m }
    | _ => ub

/-- State of a thread: remaining accesses and registers. -/
structure Thread (V : Type _) where
  code : List (Instr V)
  r1 : Option V
  r2 : Option V

/-- Let the threads perform accesses in the order given by the scheduler.  Numbers of finished or
non-existing threads are skipped. -/
def runSched (A : Arith V) : List Nat → List (Thread V) → List V →
    Res (List (Thread V) × List V)
  | [], ths, mem => ok (ths, mem)
  | t :: sch, ths, mem =>
    match ths[t]? with
    | none => runSched A sch ths mem
    | some th =>
      match th.code with
      | [] => runSched A sch ths mem
      | ins :: rest => do
        let c ← ins.exec A ⟨th.r1, th.r2, mem⟩
        runSched A sch (ths.set t ⟨rest, c.r1, c.r2⟩) c.mem

/-- An `omp for` loop: all threads start with empty registers; the loop is left when all
are finished.  `nofuel`: the scheduler did not let every thread finish. -/
def parFor (A : Arith V) (codes : List (List (Instr V))) (sch : List Nat) (mem : List V) :
    Res (List V) := do
  let r ← runSched A sch (codes.map fun c => ⟨c, none, none⟩) mem
  if r.1.all (fun th => th.code.isEmpty) then ok r.2 else nofuel

/-! ### The parallel solvers -/

/-- Accesses of the row body (sptrsv.cpp:36-39, 94-97, 116-119, 143-147, 168-172;
executor.cpp:23-26). -/
def rowCode (Lp Li : List Nat) (Lx : List V) (i : Nat) : Res (List (Instr V)) := do
  let lo ← rd Lp i
  let hi ← rd Lp (i + 1)
  let code ← forRange lo (hi - 1) (fun j code => do
    let l ← rd Lx j
    let c ← rd Li j
    pure (code ++ [.ld1 i, .ld2 c, .sub i l])) []
  let d ← rdZ Lx ((hi : Int) - 1)
  pure (code ++ [.ld1 i, .div i d])

/-- Concatenate the codes for the positions `lo..hi-1`. -/
def seqCode (lo hi : Nat) (f : Nat → Res (List (Instr V))) : Res (List (Instr V)) :=
  forRange lo hi (fun k code => do
    let c ← f k
    pure (code ++ c)) []

/-- The threads of an `omp for (j = lo; j < hi; ++j)` loop. -/
def parCodes (lo hi : Nat) (f : Nat → Res (List (Instr V))) : Res (List (List (Instr V))) :=
  forRange lo hi (fun k codes => do
    let c ← f k
    pure (codes ++ [c])) []

/-- `for (l = 0; l < levels; ++l)` around an `omp for` over `ptr[l] .. ptr[l+1]`. -/
def levelLoop (A : Arith V) (levels : Nat) (ptr : List Nat)
    (thread : Nat → Res (List (Instr V))) (sch : Nat → List Nat) (x : List V) : Res (List V) :=
  forRange 0 levels (fun l x => do
    let lo ← rd ptr l
    let hi ← rd ptr (l + 1)
    let codes ← parCodes lo hi thread
    parFor A codes (sch l) x) x

/-- `sptrsv_csr_levelset`, sptrsv.cpp:24-45 and the identical 131-151. -/
def sptrsvLevelset (A : Arith V) (Lp Li : List Nat) (Lx : List V)
    (levels : Nat) (levelPtr levelSet : List Nat) (sch : Nat → List Nat) (x : List V) :
    Res (List V) :=
  levelLoop A levels levelPtr (fun k => do
    let i ← rd levelSet k
    rowCode Lp Li Lx i) sch x

/-- The accesses of iteration `j1` of the `omp for` loop of `sptrsv_csr_lbc`,
sptrsv.cpp:91-98: the rows of part `j1` one after the other. -/
def lbcThread (Lp Li : List Nat) (Lx : List V) (s : Sched) (j1 : Nat) : Res (List (Instr V)) := do
  let lo ← rd s.partPtr j1
  let hi ← rd s.partPtr (j1 + 1)
  seqCode lo hi (fun k1 => do
    let i ← rd s.nodes k1
    rowCode Lp Li Lx i)

/-- `sptrsv_csr_lbc`, sptrsv.cpp:84-102. -/
def sptrsvLbc (A : Arith V) (Lp Li : List Nat) (Lx : List V)
    (s : Sched) (sch : Nat → List Nat) (x : List V) : Res (List V) :=
  levelLoop A s.levels s.levelPtr (lbcThread Lp Li Lx s) sch x

/-- Accesses for all rows of group `gr`: `for (k = groupPtr[gr]; k < groupPtr[gr+1]; ++k)`. -/
def groupCode (Lp Li : List Nat) (Lx : List V) (groupPtr groupSet : List Nat) (gr : Nat) :
    Res (List (Instr V)) := do
  let lo ← rd groupPtr gr
  let hi ← rd groupPtr (gr + 1)
  seqCode lo hi (fun k => do
    let i ← rd groupSet k
    rowCode Lp Li Lx i)

/-- `sptrsv_csr_group_lbc`, sptrsv.cpp:104-126. -/
def sptrsvGroupLbc (A : Arith V) (Lp Li : List Nat) (Lx : List V)
    (s : Sched) (groupPtr groupSet : List Nat) (sch : Nat → List Nat) (x : List V) :
    Res (List V) :=
  levelLoop A s.levels s.levelPtr (fun j1 => do
    let lo ← rd s.partPtr j1
    let hi ← rd s.partPtr (j1 + 1)
    seqCode lo hi (fun k1 => do
      let gr ← rd s.nodes k1
      groupCode Lp Li Lx groupPtr groupSet gr)) sch x

/-- `sptrsv_csr_group_levelset`, sptrsv.cpp:153-177, and `fs_csr_executor_sgroup`,
executor.cpp:11-32 (the arguments `b`, `n` and `ngroup` are not used there; non-null
array arguments). -/
def sptrsvGroupLevelset (A : Arith V) (Lp Li : List Nat) (Lx : List V)
    (levels : Nat) (levelPtr levelSet groupPtr groupSet : List Nat) (sch : Nat → List Nat)
    (x : List V) : Res (List V) :=
  levelLoop A levels levelPtr (fun j1 => do
    let gr ← rd levelSet j1
    groupCode Lp Li Lx groupPtr groupSet gr) sch x

/-- `sptrsv_csr_levelset_seq`, sptrsv.cpp:47-60. -/
def sptrsvLevelsetSeq (A : Arith V) (Lp Li : List Nat) (Lx : List V)
    (levels : Nat) (levelPtr levelSet : List Nat) (x : List V) : Res (List V) :=
  forRange 0 levels (fun l x => do
    let lo ← rd levelPtr l
    let hi ← rd levelPtr (l + 1)
    forRange lo hi (fun k x => do
      let i ← rd levelSet k
      serialRow A Lp Li Lx i x) x) x

/-- `sptrsv_csr_lbc_seq`, sptrsv.cpp:63-82. -/
def sptrsvLbcSeq (A : Arith V) (Lp Li : List Nat) (Lx : List V) (s : Sched) (x : List V) :
    Res (List V) :=
  forRange 0 s.levels (fun l x => do
    let lo ← rd s.levelPtr l
    let hi ← rd s.levelPtr (l + 1)
    forRange lo hi (fun j1 x => do
      let lo ← rd s.partPtr j1
      let hi ← rd s.partPtr (j1 + 1)
      forRange lo hi (fun k1 x => do
        let i ← rd s.nodes k1
        serialRow A Lp Li Lx i x) x) x) x

end Verif.Exec
