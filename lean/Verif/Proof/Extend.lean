import Verif.Model.Exec
import Verif.Model.QueueLevels

/-!
# Longer arrays

A computation that does not leave a prefix of an array gives the same result on the whole array.
`Ext x y`: `y` is the same computation as `x`, unless `x` accesses something out of bounds.
-/

namespace Verif
namespace Res

def Ext {α : Type _} (x y : Res α) : Prop := x = ub ∨ x = y

theorem Ext.rfl' {α : Type _} {x : Res α} : Ext x x := .inr rfl

theorem Ext.eq_ok {α : Type _} {x y : Res α} {a : α} (h : Ext x y) (hx : x = ok a) : y = ok a := by
  rcases h with h | h
  · rw [h] at hx; cases hx
  · rw [← h, hx]

theorem Ext.wp {α : Type _} {x y : Res α} {Q : α → Prop} (h : Ext x y) (hx : x.wp Q) : y.wp Q := by
  rcases h with rfl | rfl
  · exact hx.elim
  · exact hx

theorem Ext.bind {α β : Type _} {x y : Res α} {f g : α → Res β} (h : Ext x y)
    (hf : ∀ a, Ext (f a) (g a)) : Ext (x >>= f) (y >>= g) := by
  rcases h with rfl | rfl
  · exact .inl rfl
  · cases x with
    | ok a => exact hf a
    | ub => exact .inl rfl
    | exn => exact .inr rfl
    | nofuel => exact .inr rfl

end Res
open Res

theorem rd_take_ext {α : Type _} (l : List α) (k i : Nat) : Ext (rd (l.take k) i) (rd l i) := by
  by_cases h : i < k
  · right
    unfold rd
    rw [List.getElem?_take, if_pos h]
  · left
    unfold rd
    rw [List.getElem?_take, if_neg h]

theorem forN_ext {σ : Type _} {f g : Nat → σ → Res σ} (h : ∀ i s, Ext (f i s) (g i s)) :
    ∀ (c lo : Nat) (s : σ), Ext (forN c lo f s) (forN c lo g s)
  | 0, _, _ => Ext.rfl'
  | c + 1, lo, s => Ext.bind (h lo s) fun s' => forN_ext h c (lo + 1) s'

theorem forRange_ext {σ : Type _} {f g : Nat → σ → Res σ} (h : ∀ i s, Ext (f i s) (g i s))
    (lo hi : Nat) (s : σ) : Ext (forRange lo hi f s) (forRange lo hi g s) :=
  forN_ext h _ _ _

theorem whileF_ext {σ : Type _} {cond : σ → Res Bool} {f g : σ → Res σ}
    (h : ∀ s, Ext (f s) (g s)) : ∀ (k : Nat) (s : σ), Ext (whileF k cond f s) (whileF k cond g s)
  | 0, _ => Ext.rfl'
  | k + 1, s => Ext.bind Ext.rfl' fun b => by
      cases b
      · exact Ext.rfl'
      · exact Ext.bind (h s) fun s' => whileF_ext h k s'

namespace QLevel

theorem build_ext (n : Nat) (Lp Li ptr set : List Nat) (k : Nat) :
    Ext (build n (Lp.take k) Li ptr set) (build n Lp Li ptr set) := by
  unfold build
  refine Ext.bind ?_ fun deg => Ext.bind Ext.rfl' fun dq => Ext.bind (whileF_ext ?_ _ _)
    fun s => Ext.rfl'
  · unfold LevelSet.countInDegree
    exact Ext.bind (rd_take_ext _ _ _) fun a => Ext.rfl'
  · intro s
    unfold step removeLevel
    refine Ext.bind Ext.rfl' fun t => Ext.bind Ext.rfl' fun p => Ext.bind Ext.rfl' fun lo =>
      Ext.bind Ext.rfl' fun hi => Ext.bind (forRange_ext (fun i s => ?_) _ _ _) fun u => Ext.rfl'
    exact Ext.bind Ext.rfl' fun cc => Ext.bind (rd_take_ext _ _ _) fun a =>
      Ext.bind (rd_take_ext _ _ _) fun b => Ext.rfl'

end QLevel

namespace Exec

theorem groupLevelset_ext {V : Type} (A : Arith V) (Lp Li : List Nat) (Lx : List V) (levels : Nat)
    (levelPtr levelSet gp gs : List Nat) (sch : Nat → List Nat) (x : List V) (k : Nat) :
    Ext (sptrsvGroupLevelset A Lp Li Lx levels levelPtr (levelSet.take k) gp gs sch x)
      (sptrsvGroupLevelset A Lp Li Lx levels levelPtr levelSet gp gs sch x) := by
  unfold sptrsvGroupLevelset levelLoop
  refine forRange_ext (fun l x => ?_) _ _ _
  refine Ext.bind Ext.rfl' fun lo => Ext.bind Ext.rfl' fun hi => Ext.bind ?_ fun c => Ext.rfl'
  unfold parCodes
  refine forRange_ext (fun i s => ?_) _ _ _
  exact Ext.bind (Ext.bind (rd_take_ext _ _ _) fun gr => Ext.rfl') fun c => Ext.rfl'

end Exec
end Verif
