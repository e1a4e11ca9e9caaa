import Verif.Res

/-!
# Model: concurrent connected components

`parallel_cc` (src/hdagg/hdagg.cpp:266-312), the label part of `parallel_cc`
(src/lbc_csc_dag.cpp:32-77, the same statements) and of `computeCC`
(src/hdagg/hdagg.cpp:486-577).

Every iteration of an `omp for` loop is a thread of its own (any assignment of iterations to
OpenMP threads is a restriction of that).  A step is one load or one store of
`node2partition`, or the store `change = true`; arithmetic on thread-local variables is done
together with the load before it.  The end of an `omp for` is a barrier.  The
arrays `nodes`, `lC`, `lR`, `node2Level` are constant; their reads are bounds-checked, but done in
advance.
-/

namespace Verif.CC
open Res

/-- A thread: the current statement of an iteration together with its local variables.
`u` is the node of the iteration, `vs` the neighbours still to be handled. -/
inductive Thr where
  /-- finished -/
  | fin
  /-- `node2partition[u] = i` (hdagg.cpp:274) -/
  | initSet (u i : Nat)
  /-- `if (node2partition[u] == -1)` (hdagg.cpp:526) -/
  | initChk (u i : Nat)
  /-- `comp_u = node2partition[u]` (hdagg.cpp:292), or finished if there is no neighbour left -/
  | hNext (u : Nat) (vs : List Nat)
  /-- `comp_v = node2partition[v]`, test, `high_comp`, `low_comp` (hdagg.cpp:293-297) -/
  | hU (u v : Nat) (vs : List Nat) (cu : Int)
  /-- `if (high_comp == node2partition[nodes[high_comp]])` (hdagg.cpp:298) -/
  | hRoot (u : Nat) (vs : List Nat) (hi lo : Int)
  /-- `change = true` (hdagg.cpp:299) -/
  | hFlag (u : Nat) (vs : List Nat) (hi lo : Int)
  /-- `node2partition[nodes[high_comp]] = low_comp` (hdagg.cpp:300) -/
  | hStore (u : Nat) (vs : List Nat) (hi lo : Int)
  /-- first load of `node2partition[node]` in the condition (hdagg.cpp:308) -/
  | j0 (u : Nat)
  /-- second load of `node2partition[node]` in the condition -/
  | j1 (u : Nat) (a : Int)
  /-- load of `node2partition[nodes[...]]` and test of the condition -/
  | j2 (u : Nat) (a a' : Int)
  /-- load of `node2partition[node]` in the body (hdagg.cpp:309) -/
  | j3 (u : Nat)
  /-- load of `node2partition[nodes[...]]` in the body -/
  | j4 (u : Nat) (a : Int)
  /-- store to `node2partition[node]` in the body -/
  | j5 (u : Nat) (b : Int)
deriving DecidableEq, Repr

def Thr.finished : Thr → Bool
  | .fin => true
  | .hNext _ [] => true
  | _ => false

inductive Phase where
  | init | hook | jump | done
deriving DecidableEq, Repr

/-- State of the whole computation. -/
structure State where
  /-- `node2partition`, -1 is "no label" -/
  lab : List Int
  change : Bool
  phase : Phase
  thr : List Thr
deriving DecidableEq, Repr

/-- Constant data: the nodes of the window and the initial threads of the hooking loop. -/
structure Env where
  nodes : List Nat
  hooks : List Thr
deriving DecidableEq, Repr

/-- One step of a thread: its next statement and the effect on `node2partition`, `change`. -/
def exec (e : Env) (t : Thr) (lab : List Int) (change : Bool) : Res (Thr × List Int × Bool) :=
  match t with
  | .fin => ok (.fin, lab, change)
  | .initSet u i => do
      let lab ← wr lab u (i : Int)
      ok (.fin, lab, change)
  | .initChk u i => do
      let l ← rd lab u
      if l = -1 then ok (.initSet u i, lab, change) else ok (.fin, lab, change)
  | .hNext u [] => ok (.hNext u [], lab, change)
  | .hNext u (v :: vs) => do
      let cu ← rd lab u
      ok (.hU u v vs cu, lab, change)
  | .hU u v vs cu => do
      let cv ← rd lab v
      if cu = cv then ok (.hNext u vs, lab, change)
      else
        let high := if cu > cv then cu else cv
        let low := cu + (cv - high)
        ok (.hRoot u vs high low, lab, change)
  | .hRoot u vs high low => do
      let r ← rdZ e.nodes high
      let l ← rd lab r
      if high = l then ok (.hFlag u vs high low, lab, change) else ok (.hNext u vs, lab, change)
  | .hFlag u vs high low => ok (.hStore u vs high low, lab, true)
  | .hStore u vs high low => do
      let r ← rdZ e.nodes high
      let lab ← wr lab r low
      ok (.hNext u vs, lab, change)
  | .j0 u => do
      let a ← rd lab u
      ok (.j1 u a, lab, change)
  | .j1 u a => do
      let a' ← rd lab u
      ok (.j2 u a a', lab, change)
  | .j2 u a a' => do
      let r ← rdZ e.nodes a'
      let b ← rd lab r
      if a ≠ b then ok (.j3 u, lab, change) else ok (.fin, lab, change)
  | .j3 u => do
      let a ← rd lab u
      ok (.j4 u a, lab, change)
  | .j4 u a => do
      let r ← rdZ e.nodes a
      let b ← rd lab r
      ok (.j5 u b, lab, change)
  | .j5 u b => do
      let lab ← wr lab u b
      ok (.j0 u, lab, change)

/-- End of an `omp for` loop: the next loop starts, or `while (change)` ends. -/
def barrier (e : Env) (s : State) : State :=
  match s.phase with
  | .init => { s with phase := .hook, change := false, thr := e.hooks }
  | .hook => { s with phase := .jump, thr := e.nodes.map .j0 }
  | .jump => if s.change then { s with phase := .hook, change := false, thr := e.hooks }
             else { s with phase := .done }
  | .done => s

/-- One step of the computation in which thread `k` is chosen.  If all threads are finished, the
barrier is passed; if thread `k` does not exist or is finished, nothing happens. -/
def step (e : Env) (k : Nat) (s : State) : Res State :=
  if s.thr.all Thr.finished then ok (barrier e s)
  else match s.thr[k]? with
    | none => ok s
    | some t => do
        let (t', lab, change) ← exec e t s.lab s.change
        ok { s with lab := lab, change := change, thr := s.thr.set k t' }

/-- Run the computation with the given choices of threads; `nofuel` if it is not finished then. -/
def run (e : Env) (sch : List Nat) (s : State) : Res State := do
  let s ← forEach sch (step e) s
  if s.phase = .done then ok s else nofuel

/-- The hooking iterations (hdagg.cpp:282-290): node `u = nodes[i]` with those of its neighbours
that are in the levels `lb .. ub-1`. -/
def hookThread (lC lR lvl : List Nat) (lb ub u : Nat) : Res Thr := do
  let lo ← rd lC u
  let hi ← rd lC (u + 1)
  let vs ← forRange lo hi (fun r vs => do
    let v ← rd lR r
    let level ← rd lvl v
    if level < lb ∨ ub ≤ level then ok vs else ok (vs ++ [v])) []
  ok (.hNext u vs)

def hookThreads (lC lR lvl : List Nat) (lb ub : Nat) (nodes : List Nat) : Res (List Thr) :=
  forEach nodes (fun u acc => do
    let t ← hookThread lC lR lvl lb ub u
    ok (acc ++ [t])) []

/-- The environment of a call. -/
def mkEnv (lC lR lvl : List Nat) (lb ub : Nat) (nodes : List Nat) : Res Env := do
  let hooks ← hookThreads lC lR lvl lb ub nodes
  ok ⟨nodes, hooks⟩

/-- Initial state of `parallel_cc`: the stars are still to be created (hdagg.cpp:270-275). -/
def ccStart (nodes : List Nat) (lab : List Int) : State :=
  { lab := lab, change := true, phase := .init,
    thr := nodes.zipIdx.map fun (u, i) => .initSet u i }

/-- `parallel_cc`, hdagg.cpp:266-312; `nodes` are the `numNodes` nodes of the window, `lab` is
`node2partition`, `sch` the interleaving. -/
def parallelCC (lC lR : List Nat) (lb ub : Nat) (lvl nodes : List Nat) (lab : List Int)
    (sch : List Nat) : Res (List Int) := do
  let e ← mkEnv lC lR lvl lb ub nodes
  let s ← run e sch (ccStart nodes lab)
  ok s.lab

/-- Initial state of the loops of `computeCC` (hdagg.cpp:523-531): nodes from position `m` on are
new. -/
def incStart (nodes : List Nat) (m : Nat) (lab : List Int) : State :=
  { lab := lab, change := true, phase := .init,
    thr := (nodes.zipIdx.drop m).map fun (u, i) => .initChk u i }

/-- The label part of `computeCC` for more than one level, hdagg.cpp:523-577. -/
def incrementalCC (lC lR : List Nat) (lb ub : Nat) (lvl nodes : List Nat) (m : Nat)
    (lab : List Int) (sch : List Nat) : Res (List Int) := do
  let e ← mkEnv lC lR lvl lb ub nodes
  let s ← run e sch (incStart nodes m lab)
  ok s.lab

end Verif.CC
