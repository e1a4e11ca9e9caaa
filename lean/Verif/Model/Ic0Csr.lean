import Verif.Model.Machine
import Verif.Spec.Ic0
import Verif.Spec.Sched

/-!
# Model: incomplete Cholesky kernels for matrices stored by rows

example/old/spic0.cpp (CMake does not compile it).  The arithmetic is abstract (`IcArith`), array accesses are
bounds checked.  In the parallel kernels every access to `Lx` is one instruction; the subtraction S3 has no
`omp atomic` here, so it is a load and a store.
-/

namespace Verif.Ic0r
open Res

variable {V : Type}

/-- `Lp[i+1]-1`; an index below 0 is undefined behaviour. -/
def lastPos (p : List Nat) (i : Nat) : Res Nat := do
  let e ← rd p (i + 1)
  if e = 0 then ub else ok (e - 1)

/-- The loop over `l`, spic0.cpp:20-24, 153-157, 227-231: `hit l` is the statement S3. -/
def scan {σ : Type} (ix : List Nat) (m d k : Nat) (hit : Nat → σ → Res σ) (s : σ) : Res σ :=
  forRange m d (fun l s => do
    let rl ← rd ix l
    let rk ← rd ix k
    if rl = rk then do
      let rn ← rd ix (l + 1)
      if rn ≤ rk then hit l s else ok s
    else ok s) s

/-- S1, spic0.cpp:11-12.  `pos` is the condition of the assertion (constantly true if it is compiled without
assertions); a failing assertion is `exn`. -/
def rootOf (A : IcArith V) (pos : V → Bool) (d : Nat) (x : List V) : Res (List V) := do
  let v ← rd x d
  if pos v then wr x d (A.root v) else exn

/-- S2, spic0.cpp:15. -/
def scale (A : IcArith V) (d m : Nat) (x : List V) : Res (List V) := do
  let v ← rd x m
  let w ← rd x d
  wr x m (A.dv v w)

/-- S3, spic0.cpp:22. -/
def subtract (A : IcArith V) (m k l : Nat) (x : List V) : Res (List V) := do
  let y ← rd x m
  let z ← rd x l
  let v ← rd x k
  wr x k (A.upd v y z)

/-- Body of the loop over the rows of `spic0_csr`, spic0.cpp:11-26. -/
def row (A : IcArith V) (pos : V → Bool) (p ix : List Nat) (i : Nat) (x : List V) : Res (List V) := do
  let d ← lastPos p i
  let x ← rootOf A pos d x
  let lo ← rd p i
  let x ← forRange lo d (scale A d) x
  forRange lo d (fun m x => do
    let j ← rd ix m
    let b ← rd p j
    let e ← rd p (j + 1)
    forRange b e (fun k x => scan ix m d k (subtract A m k) x) x) x

/-- `spic0_csr`, spic0.cpp:9-28. -/
def ic0Csr (A : IcArith V) (pos : V → Bool) (n : Nat) (p ix : List Nat) (x : List V) : Res (List V) :=
  forRange 0 n (row A pos p ix) x

/-! ### The parallel kernels -/

/-- Accesses to `Lx`. -/
inductive Ins where
  /-- load `Lx[a]` into the first register -/
  | ld1 (a : Nat)
  /-- load `Lx[a]` into the second register -/
  | ld2 (a : Nat)
  /-- load `Lx[a]` into the third register -/
  | ld3 (a : Nat)
  /-- `Lx[a] = sqrt(r1)` -/
  | sqrt (a : Nat)
  /-- `Lx[a] = r1 / r2` -/
  | div (a : Nat)
  /-- `Lx[a] = r3 - r1 * r2` -/
  | sub (a : Nat)
deriving DecidableEq, Repr

/-- The registers of a thread. -/
structure Regs (V : Type) where
  r1 : Option V
  r2 : Option V
  r3 : Option V

/-- Perform one instruction; using an empty register is `ub`. -/
def step (A : IcArith V) : Ins → Regs V → List V → Res (Regs V × List V)
  | .ld1 a, r, x => do
    let v ← rd x a
    ok (⟨some v, r.r2, r.r3⟩, x)
  | .ld2 a, r, x => do
    let v ← rd x a
    ok (⟨r.r1, some v, r.r3⟩, x)
  | .ld3 a, r, x => do
    let v ← rd x a
    ok (⟨r.r1, r.r2, some v⟩, x)
  | .sqrt a, ⟨some u, v, w⟩, x => do
    let x ← wr x a (A.root u)
    ok (⟨some u, v, w⟩, x)
  | .div a, ⟨some u, some v, w⟩, x => do
    let x ← wr x a (A.dv u v)
    ok (⟨some u, some v, w⟩, x)
  | .sub a, ⟨some u, some v, some w⟩, x => do
    let x ← wr x a (A.upd w u v)
    ok (⟨some u, some v, some w⟩, x)
  | _, _, _ => ub

/-- The instructions for row `i`, spic0.cpp:145-159, 219-233 (no assertion). -/
def rowCode (p ix : List Nat) (i : Nat) : Res (List Ins) := do
  let d ← lastPos p i
  let lo ← rd p i
  let c2 ← Mach.seqCode lo d (fun m => ok [Ins.ld1 m, .ld2 d, .div m])
  let c3 ← Mach.seqCode lo d (fun m => do
    let j ← rd ix m
    let b ← rd p j
    let e ← rd p (j + 1)
    Mach.seqCode b e (fun k =>
      scan ix m d k (fun l code => ok (code ++ [Ins.ld1 m, .ld2 l, .ld3 k, .sub k])) []))
  ok ([Ins.ld1 d, .sqrt d] ++ c2 ++ c3)

/-- `spic0_csr_levelset`, spic0.cpp:135-163. -/
def levelset (A : IcArith V) (p ix : List Nat) (levels : Nat) (levelPtr levelSet : List Nat)
    (sch : Nat → List Nat) (x : List V) : Res (List V) :=
  Mach.levelLoop (step A) ⟨none, none, none⟩ levels levelPtr (fun k => do
    let i ← rd levelSet k
    rowCode p ix i) sch x

/-- `spic0_csr_lbc`, spic0.cpp:208-236. -/
def lbc (A : IcArith V) (p ix : List Nat) (s : Sched) (sch : Nat → List Nat) (x : List V) : Res (List V) :=
  Mach.levelLoop (step A) ⟨none, none, none⟩ s.levels s.levelPtr (fun j1 => do
    let lo ← rd s.partPtr j1
    let hi ← rd s.partPtr (j1 + 1)
    Mach.seqCode lo hi (fun k => do
      let i ← rd s.nodes k
      rowCode p ix i)) sch x

end Verif.Ic0r
