import Verif.Model.Machine
import Verif.Spec.Ic0
import Verif.Spec.Sched

/-!
# Model: incomplete Cholesky kernels

example/old/spic0.cpp (these kernels belong to the old demo programs; CMake does not compile them).

The arithmetic is abstract (`IcArith`).  Array accesses are bounds checked.  In the parallel kernels
every access to `Lx` of a thread is one instruction, except the atomic subtraction (`omp atomic`),
which reads and writes its target in one instruction.
-/

namespace Verif.Ic0
open Res

variable {V : Type}

/-- The state after a loop, left by `break` or not. -/
def finish {σ : Type} : Ctl σ σ → Res σ
  | .next s => ok s
  | .brk s => ok s

/-- The inner loop over `l` (spic0.cpp:44-52, 78-87, 117-126, 188-198; with `stop = false`
spic0.cpp:258-265, which has no `else if … break`): `hit l` is the statement S3. -/
def scanRows {σ : Type} (ix : List Nat) (stop : Bool) (m e k : Nat) (hit : Nat → σ → Res σ) (s : σ) : Res σ := do
  let r ← forRangeB m e (fun l s => do
    let rl ← rd ix l
    let rk ← rd ix k
    if rl = rk then do
      let s ← hit l s
      ok (Ctl.next s)
    else if stop && decide (rk < rl) then ok (Ctl.brk s)
    else ok (Ctl.next s)) s
  finish r

/-- S1, spic0.cpp:35-36. -/
def pivot (A : IcArith V) (d : Nat) (val : List V) : Res (List V) := do
  let temp ← rd val d
  let v ← rd val d
  wr val d (A.dv v (A.root temp))

/-- S2, spic0.cpp:39. -/
def scale (A : IcArith V) (d m : Nat) (val : List V) : Res (List V) := do
  let v ← rd val m
  let w ← rd val d
  wr val m (A.dv v w)

/-- S3, spic0.cpp:47. -/
def subtract (A : IcArith V) (m k l : Nat) (val : List V) : Res (List V) := do
  let y ← rd val m
  let z ← rd val l
  let v ← rd val k
  wr val k (A.upd v y z)

/-- Body of the loop over the columns of `ic0_csc`, spic0.cpp:35-54. -/
def column (A : IcArith V) (p ix : List Nat) (i : Nat) (val : List V) : Res (List V) := do
  let d ← rd p i
  let e ← rd p (i + 1)
  let val ← pivot A d val
  let val ← forRange (d + 1) e (scale A d) val
  forRange (d + 1) e (fun m val => do
    let j ← rd ix m
    let lo ← rd p j
    let hi ← rd p (j + 1)
    forRange lo hi (fun k val => scanRows ix true m e k (subtract A m k) val) val) val

/-- `ic0_csc`, spic0.cpp:30-56. -/
def ic0Csc (A : IcArith V) (n : Nat) (p ix : List Nat) (val : List V) : Res (List V) :=
  forRange 0 n (column A p ix) val

/-! ### The parallel kernels -/

/-- Accesses to `Lx`. -/
inductive Ins where
  /-- load `Lx[a]` into the first register -/
  | ld1 (a : Nat)
  /-- load `Lx[a]` into the second register -/
  | ld2 (a : Nat)
  /-- `Lx[a] = r2 / sqrt(r1)` -/
  | root (a : Nat)
  /-- `Lx[a] = r1 / r2` -/
  | div (a : Nat)
  /-- `omp atomic`: `Lx[a] -= r1 * r2` -/
  | atom (a : Nat)
deriving DecidableEq, Repr

/-- Perform one instruction. -/
def step (A : IcArith V) : Ins → Option V × Option V → List V → Res ((Option V × Option V) × List V)
  | .ld1 a, r, m => do
    let v ← rd m a
    ok ((some v, r.2), m)
  | .ld2 a, r, m => do
    let v ← rd m a
    ok ((r.1, some v), m)
  | .root a, (some x, some y), m => do
    let m ← wr m a (A.dv y (A.root x))
    ok ((some x, some y), m)
  | .div a, (some x, some y), m => do
    let m ← wr m a (A.dv x y)
    ok ((some x, some y), m)
  | .atom a, (some x, some y), m => do
    let v ← rd m a
    let m ← wr m a (A.upd v x y)
    ok ((some x, some y), m)
  | _, _, _ => ub

/-- The instructions for column `i`, spic0.cpp:69-89, 108-128, 179-200 and, with `stop = false`,
249-267. -/
def colCode (stop : Bool) (p ix : List Nat) (i : Nat) : Res (List Ins) := do
  let d ← rd p i
  let e ← rd p (i + 1)
  let c2 ← Mach.seqCode (d + 1) e (fun m => ok [Ins.ld1 m, .ld2 d, .div m])
  let c3 ← Mach.seqCode (d + 1) e (fun m => do
    let j ← rd ix m
    let lo ← rd p j
    let hi ← rd p (j + 1)
    Mach.seqCode lo hi (fun k =>
      scanRows ix stop m e k (fun l code => ok (code ++ [Ins.ld1 m, .ld2 l, .atom k])) []))
  ok ([Ins.ld1 d, .ld2 d, .root d] ++ c2 ++ c3)

/-- `for (k = lo; k < hi; ++k)` over the columns `set[k]`. -/
def colsCode (stop : Bool) (p ix set : List Nat) (lo hi : Nat) : Res (List Ins) :=
  Mach.seqCode lo hi (fun k => do
    let i ← rd set k
    colCode stop p ix i)

/-- `spico_csc_levelset`, spic0.cpp:59-93. -/
def levelset (A : IcArith V) (p ix : List Nat) (levels : Nat) (levelPtr levelSet : List Nat)
    (sch : Nat → List Nat) (x : List V) : Res (List V) :=
  Mach.levelLoop (step A) (none, none) levels levelPtr (fun k => do
    let i ← rd levelSet k
    colCode true p ix i) sch x

/-- The columns of group `gr`: spic0.cpp:105-129, 177-201. -/
def groupCode (p ix groupPtr groupSet : List Nat) (gr : Nat) : Res (List Ins) := do
  let lo ← rd groupPtr gr
  let hi ← rd groupPtr (gr + 1)
  colsCode true p ix groupSet lo hi

/-- `spico_csc_group_levelset`, spic0.cpp:95-133. -/
def groupLevelset (A : IcArith V) (p ix : List Nat) (levels : Nat) (levelPtr levelSet groupPtr groupSet : List Nat)
    (sch : Nat → List Nat) (x : List V) : Res (List V) :=
  Mach.levelLoop (step A) (none, none) levels levelPtr (fun k => do
    let gr ← rd levelSet k
    groupCode p ix groupPtr groupSet gr) sch x

/-- `spic0_csc_group_lbc`, spic0.cpp:165-206. -/
def groupLbc (A : IcArith V) (p ix : List Nat) (s : Sched) (groupPtr groupSet : List Nat)
    (sch : Nat → List Nat) (x : List V) : Res (List V) :=
  Mach.levelLoop (step A) (none, none) s.levels s.levelPtr (fun j1 => do
    let lo ← rd s.partPtr j1
    let hi ← rd s.partPtr (j1 + 1)
    Mach.seqCode lo hi (fun k1 => do
      let gr ← rd s.nodes k1
      groupCode p ix groupPtr groupSet gr)) sch x

/-- `spico_csc_lbc`, spic0.cpp:238-272. -/
def lbc (A : IcArith V) (p ix : List Nat) (s : Sched) (sch : Nat → List Nat) (x : List V) : Res (List V) :=
  Mach.levelLoop (step A) (none, none) s.levels s.levelPtr (fun j1 => do
    let lo ← rd s.partPtr j1
    let hi ← rd s.partPtr (j1 + 1)
    colsCode false p ix s.nodes lo hi) sch x

end Verif.Ic0
