import Verif.Model.Glc
import Verif.Model.P2PBuild
import Verif.Model.SpmpLevels

/-!
# Model: `GLC_V2` and `HDAGG` with `parallelLevelset = true` (src/hdagg/hdagg.cpp:628-649, 842-866)

In `GLC_V2` the level sets come from SpMP if the macro `SPMP` is defined.  In `HDAGG` the macro is spelt `SpMP`, which
nothing defines (and the text between would not compile with it, as it uses the namespace of that name), so that no
statement of the branch is compiled: `nlevels` keeps the value it happens to have and the vectors stay as they were.
-/

namespace Verif.Hdagg
open Res P2P

variable {K : Type} [Zero K] [Add K] [Sub K] [LT K] [DecidableLT K] [DecidableEq K] {V : Type} [Zero V] [One V]

/-- What the parallel level sets depend on: SpMP, the reciprocal, the order of the parallel loop of
`Convert_LBC_CSR_to_SpMP` and the content of the new arrays. -/
structure SpmpPar (V : Type) where
  spmp : SpmpMat V → LevelTasks
  recip : V → V
  order : Nat → List Nat
  dp0 : Nat → List Nat
  d0 : Nat → List V

/-- The loop that fills `node_to_level`, hdagg.cpp:858-863. -/
def levelNumbers (nl : Nat) (ptr set ntl : List Nat) : Res (List Nat) :=
  forRange 0 nl (fun l ntl => do
    let lo ← rd ptr l
    let hi ← rd ptr (l + 1)
    forRange lo hi (fun k ntl => do
      let v ← rd set k
      wr ntl v l) ntl) ntl

/-- The branch for `parallelLevelset`, hdagg.cpp:846-869: `nlevels`, `level_ptr`, `level_set`, `node_to_level`.
`nnz` is the argument of that name.  The code is that of `dagMat`, on the first `n + 1` and `nnz` elements. -/
def parLevels (debug : Bool) (P : SpmpPar V) (n nnz cores : Nat) (p ix : List Nat) :
    Res (Nat × List Nat × List Nat × List Nat) := do
  let p ← copyN (n + 1) p
  let ix ← copyN nnz ix
  let M ← dagMat P.recip P.order P.dp0 P.d0 p ix
  let r ← levelsetSpmp debug n cores (P.spmp M)
  let ntl ← levelNumbers r.1 r.2.1 r.2.2 (List.replicate n 0)
  ok (r.1, r.2.1, r.2.2, ntl)

/-- `GLC_V2` after the level sets, hdagg.cpp:876-1089 (the same as in `glc`). -/
def glcRest (debug : Bool) (rdiv : K → Nat → K) (accept : Nat → Nat → Bool) (cc : Orac) (a : Args K) (nl : Nat)
    (ptr set ntl : List Nat) : Res (List Nat × Sched) := do
  let d : Inp K := ⟨a.n, a.p, a.ix, a.nodeCost, a.cores, rdiv, ptr, set, ntl, nl⟩
  let s ← whileF nl (fun s => ok (decide (s.base.lvl < nl))) (glcOut debug a.binPack d accept cc)
    ⟨⟨[0], List.replicate nl [], 0⟩, ⟨0, [0], [0], []⟩⟩
  ok (s.base.wm, { s.sched with levels := s.base.wm.length - 1 })

/-- `GLC_V2` with `parallelLevelset = true` in a build with `SPMP`, hdagg.cpp:807-1089. -/
def glcPar (debug : Bool) (P : SpmpPar V) (rdiv : K → Nat → K) (accept : Nat → Nat → Bool) (cc : Orac) (nnz : Nat)
    (a : Args K) : Res (List Nat × Sched) := do
  let r ← parLevels debug P a.n nnz a.cores a.p a.ix
  glcRest debug rdiv accept cc a r.1 r.2.1 r.2.2.1 r.2.2.2

/-- `HDAGG` with `parallelLevelset = true`, hdagg.cpp:608-805.  `nlevels` is the value of the variable of that name,
which is not initialised; for a negative one `std::vector(nlevels)` throws. -/
def hdaggPar (debug : Bool) (rdiv : K → Nat → K) (accept : Nat → Nat → Bool) (cc cc' : Orac) (nlevels : Int)
    (a : Args K) : Res (List Nat × Sched) :=
  if nlevels < 0 then exn
  else do
    let w ← windows debug ⟨a.n, a.p, a.ix, a.nodeCost, a.cores, rdiv, [], [], List.replicate a.n 0, nlevels.toNat⟩
      accept cc
    let s ← computeSchedule debug ⟨a.cores, a.n, a.p, a.ix, [], [], List.replicate a.n 0, a.binPack, a.postOrder⟩
      w.wm w.chunks cc'
    ok (w.wm, s)

end Verif.Hdagg
