import Verif.Res

/-!
# Model: partition by weight and by breadth-first search

`partition_by_weight` and `partition_by_bfs` (utils/utils.cpp 57-160) with `sum_vector`
(include/aggregation/utils.h 80-84).  Weights are elements of an arbitrary type with arbitrary
operations, so that nothing is assumed about `double`; in particular `<` and `>=` may both be false.
-/

namespace Verif.PartW
open Res

/-- The operations on `double` that the two functions use.  `even s k` is `ceil(s / k)`. -/
structure Ops (K : Type) where
  zero : K
  add : K → K → K
  lt : K → K → Bool
  ge : K → K → Bool
  even : K → Nat → K

variable {K : Type}

/-- `sum_vector`, utils.h:80-84. -/
def sumVector (A : Ops K) (n : Nat) (v : List K) : Res K :=
  forRange 0 n (fun i s => do
    let x ← rd v i
    ok (A.add s x)) A.zero

/-- `even_weight`, utils.cpp:60-67 and 91-97: the given targets, or the same target for all parts. -/
def targets (A : Ops K) (n : Nat) (weight : List K) (parts : Nat) (target : Option (List K)) :
    Res (List K) :=
  match target with
  | some t => ok t
  | none => do
    let s ← sumVector A n weight
    ok (List.replicate parts (A.even s parts))

/-! ### `partition_by_weight` -/

/-- utils.cpp:71-77, one part: the loop ends after at most `n` rounds. -/
def takePart (A : Ops K) (n : Nat) (set : List Nat) (weight : List K) (e : K) (j : Nat) :
    Res (K × Nat) :=
  whileF n (fun s => ok (A.lt s.1 e && decide (s.2 < n)))
    (fun s => do
      let x ← rd set s.2
      let w ← rd weight x
      ok (A.add s.1 w, s.2 + 1)) (A.zero, j)

/-- `partition_by_weight`, utils.cpp:57-83; `parts` is `n_parts`. -/
def byWeight (A : Ops K) (n : Nat) (set : List Nat) (weight : List K) (parts : Nat)
    (target : Option (List K)) : Res (List Nat) := do
  let even ← targets A n weight parts target
  let r ← forRange 0 parts (fun i s => do
    let e ← rd even i
    let t ← takePart A n set weight e s.1
    let ind ← wr s.2 (i + 1) t.2
    ok (t.2, ind)) (0, List.replicate (parts + 1) 0)
  ok r.2

/-! ### `partition_by_bfs` -/

/-- `c_wgt`, `stack`, `is_visited`, `visited_nodes`, `set_temp`. -/
structure St (K : Type) where
  c : K
  queue : List Nat
  vis : List Bool
  cnt : Nat
  parts : List (List Nat)

/-- utils.cpp:124-128, one neighbour. -/
def edge (x : Nat) (s : St K) : Res (St K) := do
  let v ← rd s.vis x
  if v = false then do
    let vis ← wr s.vis x true
    ok { s with queue := s.queue ++ [x], vis := vis }
  else ok s

/-- utils.cpp:121-129, one node is taken from the front and its neighbours are put at the end. -/
def pop (A : Ops K) (Gp Gi : List Nat) (weight : List K) (i : Nat) (s : St K) : Res (St K) :=
  match s.queue with
  | [] => ub
  | cn :: q => do
    let w ← rd weight cn
    let p ← rd s.parts i
    let parts ← wr s.parts i (p ++ [cn])
    let a ← rd Gp cn
    let b ← rd Gp (cn + 1)
    forRange a b (fun k s => do
      let x ← rd Gi k
      edge x s) ⟨A.add s.c w, q, s.vis, s.cnt + 1, parts⟩

/-- utils.cpp:120-132, `while (!stack.empty())`. -/
def drain (A : Ops K) (n : Nat) (Gp Gi : List Nat) (weight : List K) (i : Nat) (e : K) (s : St K) :
    Res (St K) :=
  loopF (n + 1) (fun s =>
    if s.queue = [] then ok (.brk s) else do
    let s ← pop A Gp Gi weight i s
    if A.ge s.c e then ok (.brk s) else ok (.next s)) s

/-- utils.cpp:109-115, the first node not visited. -/
def firstFree (n : Nat) (vis : List Bool) : Res (Ctl Unit Nat) :=
  forRangeB 0 n (fun k _ => do
    let v ← rd vis k
    if v = false then ok (.brk k) else ok (.next ())) ()

/-- utils.cpp:106-133, the loop that fills part `i`. -/
def fillPart (A : Ops K) (n : Nat) (Gp Gi : List Nat) (weight : List K) (i : Nat) (e : K) (s : St K) :
    Res (St K) :=
  loopF (n + 1) (fun s =>
    if (A.lt s.c e && decide (s.cnt < n)) = false then ok (.brk s) else
    if s.queue = [] then do
      let f ← firstFree n s.vis
      match f with
      | .next _ => ok (.brk s)
      | .brk k => do
        let vis ← wr s.vis k true
        let s ← drain A n Gp Gi weight i e { s with queue := [k], vis := vis }
        ok (.next s)
    else do
      let s ← drain A n Gp Gi weight i e s
      ok (.next s)) s

/-- utils.cpp:136-143, what is left goes to the last part. -/
def leftover (n parts : Nat) (s : St K) : Res (List (List Nat)) := do
  let l ← forEach s.queue (fun x (l : List (List Nat)) =>
    if parts = 0 then ub else do
    let p ← rd l (parts - 1)
    wr l (parts - 1) (p ++ [x])) s.parts
  forRange 0 n (fun k l => do
    let v ← rd s.vis k
    if v = false then
      if parts = 0 then ub else do
      let p ← rd l (parts - 1)
      wr l (parts - 1) (p ++ [k])
    else ok l) l

/-- utils.cpp:145-155, the parts are copied one after the other. -/
def flattenParts (debug : Bool) (n parts : Nat) (l : List (List Nat)) : Res (List Nat × List Nat) :=
  forRange 0 l.length (fun j s => do
    let part ← rd l j
    let ip ← rd s.1 j
    let ptr ← wr s.1 (j + 1) (ip + part.length)
    let r ← forEach part (fun x (t : Nat × List Nat) =>
      if debug = true ∧ ¬ t.1 < n then exn else do
      let nodes ← wr t.2 t.1 x
      ok (t.1 + 1, nodes)) (ip, s.2)
    ok (ptr, r.2)) (List.replicate (parts + 1) 0, List.replicate n 0)

/-- `partition_by_bfs`, utils.cpp:85-160: level pointer, part pointer and nodes (the number of levels
is 1).  With `debug` the assertions are checked. -/
def byBfs (A : Ops K) (debug : Bool) (n : Nat) (Gp Gi : List Nat) (weight : List K) (parts : Nat)
    (target : Option (List K)) : Res (List Nat × List Nat × List Nat) := do
  let even ← targets A n weight parts target
  let r ← forRangeB 0 parts (fun i s =>
    if s.cnt < n then
      if debug = true ∧ ¬ s.queue.length < n then exn else do
      let e ← rd even i
      let s ← fillPart A n Gp Gi weight i e { s with c := A.zero }
      ok (.next s)
    else ok (.brk s)) (⟨A.zero, [], List.replicate n false, 0, List.replicate parts []⟩ : St K)
  let s := match r with
    | .next s => s
    | .brk s => s
  let l ← leftover n parts s
  let f ← flattenParts debug n parts l
  ok ([0, parts], f.1, f.2)

end Verif.PartW
