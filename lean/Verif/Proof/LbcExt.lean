import Verif.Proof.Extend
import Verif.Model.LbcSeq

/-! # The sequential LBC inspector on longer arrays -/

namespace Verif
open Res

theorem forEach_ext {α σ : Type _} {f g : α → σ → Res σ} (h : ∀ a s, Ext (f a s) (g a s)) :
    ∀ (l : List α) (s : σ), Ext (forEach l f s) (forEach l g s)
  | [], _ => Ext.rfl'
  | a :: l, s => Ext.bind (h a s) fun s' => forEach_ext h l s'

theorem loopF_ext {σ ρ : Type _} {f g : σ → Res (Ctl σ ρ)} (h : ∀ s, Ext (f s) (g s)) :
    ∀ (k : Nat) (s : σ), Ext (loopF k f s) (loopF k g s)
  | 0, _ => Ext.rfl'
  | k + 1, s => Ext.bind (h s) fun r => by
      cases r with
      | next s' => exact loopF_ext h k s'
      | brk r => exact Ext.rfl'

/-- Proves `Ext x y` for two computations of the same shape. -/
macro "ext_step" : tactic => `(tactic| first
  | with_reducible exact Ext.rfl'
  | with_reducible exact rd_take_ext _ _ _
  | with_reducible refine forRange_ext (fun _ _ => ?_) _ _ _
  | with_reducible refine forEach_ext (fun _ _ => ?_) _ _
  | with_reducible refine whileF_ext (fun _ => ?_) _ _
  | with_reducible refine loopF_ext (fun _ => ?_) _ _
  | with_reducible refine Ext.bind ?_ (fun _ => ?_)
  | dsimp only
  | split)

namespace LevelSet

theorem buildLevelSet_ext (n : Nat) (Lp Li : List Nat) (k : Nat) :
    Ext (buildLevelSet n (Lp.take k) Li) (buildLevelSet n Lp Li) := by
  unfold buildLevelSet countInDegree round removeEdges
  repeat' ext_step

end LevelSet

namespace Lbc

variable {K : Type} [Add K] [LT K] [DecidableLT K]

theorem inDegrees_ext (n : Nat) (Lp Li : List Nat) (k : Nat) :
    Ext (inDegrees n (Lp.take k) Li) (inDegrees n Lp Li) := by
  unfold inDegrees countCol
  repeat' ext_step

omit [Add K] [LT K] [DecidableLT K] in
theorem windows_ext (P : Params K) (n : Nat) (Lp Li : List Nat) (a b : Int) (k : Nat) :
    Ext (windows P n (Lp.take k) Li a b) (windows P n Lp Li a b) := by
  unfold windows
  exact Ext.bind (LevelSet.buildLevelSet_ext n Lp Li k) fun _ => Ext.rfl'

theorem dfsCC_ext (n : Nat) (Lp Li : List Nat) (j : Nat) (marked : List Int) (xi ps : List Nat)
    (k : Nat) : Ext (dfsCC n (Lp.take k) Li j marked xi ps) (dfsCC n Lp Li j marked xi ps) := by
  unfold dfsCC dfsStep
  repeat' ext_step

theorem bfs_ext (debug : Bool) (n : Nat) (Lp Li : List Nat) (lab : List Int)
    (levelPtr levelSet : List Nat) (lev : Nat) (s : Bfs) (k : Nat) :
    Ext (bfs debug n (Lp.take k) Li lab levelPtr levelSet lev s)
      (bfs debug n Lp Li lab levelPtr levelSet lev s) := by
  unfold bfs bfsLeaf bfsPop
  repeat' ext_step

omit [LT K] [DecidableLT K] in
theorem windowComps_ext (n : Nat) (Lp Li levelPtr levelSet node2Level : List Nat) (dfsLevel : Nat)
    (nodeCost : List K) (s : Comps K) (k : Nat) :
    Ext (windowComps n (Lp.take k) Li levelPtr levelSet node2Level dfsLevel nodeCost s)
      (windowComps n Lp Li levelPtr levelSet node2Level dfsLevel nodeCost s) := by
  unfold windowComps leafComp
  repeat' first | with_reducible exact dfsCC_ext _ _ _ _ _ _ _ _ | ext_step

theorem coarsenSeq_ext (P : Params K) (n : Nat) (Lp Li : List Nat) (a b : Int) (nodeCost : List K)
    (zero : K) (xi0 ps0 : List Nat) (k : Nat) :
    Ext (coarsenSeq P n (Lp.take k) Li a b nodeCost zero xi0 ps0)
      (coarsenSeq P n Lp Li a b nodeCost zero xi0 ps0) := by
  unfold coarsenSeq processSeq
  repeat' first
    | with_reducible exact windows_ext _ _ _ _ _ _ _
    | with_reducible exact inDegrees_ext _ _ _ _
    | with_reducible exact windowComps_ext _ _ _ _ _ _ _ _ _ _
    | with_reducible exact bfs_ext _ _ _ _ _ _ _ _ _ _
    | ext_step

end Lbc
end Verif
