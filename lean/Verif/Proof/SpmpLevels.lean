import Verif.Model.SpmpLevels
import Verif.ResLemmas
import Verif.Proof.SparsePerm
import Mathlib.Data.List.Flatten
import Mathlib.Data.List.Perm.Basic
import Mathlib.Algebra.BigOperators.Group.List.Basic

/-! # The level set taken from a level schedule of SpMP -/

namespace Verif.P2P
open Res Sp

/-- The state after the rows of `done` have been stored. -/
def Stored (n : Nat) (done : List Nat) (s : Nat × List Nat) : Prop :=
  s = (done.length, done ++ List.replicate (n - done.length) 0)

theorem taskRows_wp {S : LevelTasks} {n lo hi : Nat} {done : List Nat} {s : Nat × List Nat} (hle : lo ≤ hi)
    (hp : hi ≤ S.perm.length) (hs : Stored n done s) (hn : done.length + (hi - lo) ≤ n) :
    wp (taskRows S lo hi s) (Stored n (done ++ slice S.perm lo hi)) := by
  unfold taskRows
  refine forRange_wp (fun i s => Stored n (done ++ slice S.perm lo i) s) hle ?_ ?_
  · rw [slice_self, List.append_nil]; exact hs
  · intro i s h1 h2 h
    unfold Stored at h ⊢
    subst h
    dsimp only
    have hl : (done ++ slice S.perm lo i).length = done.length + (i - lo) := by
      rw [List.length_append, slice_length (by omega)]
    rw [rd_getD 0 (by omega), ok_bind, wr_eq (by rw [List.length_append (bs := List.replicate _ _), List.length_replicate]; omega), ok_bind, wp_ok,
      slice_succ h1 (getElem?_getD 0 (by omega))]
    rw [← List.append_assoc]
    generalize done ++ slice S.perm lo i = d at hl ⊢
    refine Prod.ext (by simp) ?_
    dsimp only
    rw [List.set_append_right _ _ (Nat.le_refl _), Nat.sub_self, List.append_assoc]
    congr 1
    have : n - d.length = (n - (d ++ [S.perm.getD i 0]).length) + 1 := by
      rw [List.length_append, List.length_singleton]; omega
    rw [this, List.replicate_succ, List.set_cons_zero]
    rfl

variable {S : LevelTasks} {T L n : Nat} {dep : Nat → Nat → Prop}

/-- The rows of a task. -/
def LevelTasks.rows (S : LevelTasks) (k : Nat) : List Nat :=
  slice S.perm (S.taskBoundaries.getD k 0) (S.taskBoundaries.getD (k + 1) 0)

/-- The rows of a level. -/
def LevelTasks.level (S : LevelTasks) (T L l : Nat) : List Nat := (List.range T).flatMap fun t => S.rows (t * L + l)

theorem task_lt {t l : Nat} (ht : t < T) (hl : l < L) : t * L + l < T * L := by
  have : (t + 1) * L ≤ T * L := Nat.mul_le_mul_right _ ht
  rw [Nat.succ_mul] at this
  omega

theorem perm_len (h : S.Ok T L n dep) : n ≤ S.perm.length := by
  have := h.perm.length_eq
  rw [List.length_take, List.length_range] at this
  omega

theorem rows_len (h : S.Ok T L n dep) {k : Nat} (hk : k < T * L) : (S.rows k).length = S.size k := by
  have h1 := h.tsk.dmono_le (show k + 1 ≤ T * L from hk) (Nat.le_refl _)
  rw [h.tsk.dlast] at h1
  exact slice_length (h1.trans (perm_len h))

theorem level_len (h : S.Ok T L n dep) {l : Nat} (hl : l < L) :
    S.levIndices.getD (l + 1) 0 = S.levIndices.getD l 0 + (S.level T L l).length := by
  rw [h.size l hl, LevelTasks.level, List.length_flatMap]
  congr 2
  refine List.map_congr_left fun t ht => ?_
  exact (rows_len h (task_lt (List.mem_range.1 ht) hl)).symm

theorem tot_level (h : S.Ok T L n dep) {l : Nat} (hl : l ≤ L) : tot (S.level T L) l = S.levIndices.getD l 0 := by
  induction l with
  | zero => rw [h.lev.d0]; rfl
  | succ l ih => rw [tot_succ, ih (by omega), level_len h (by omega)]

theorem level_wp (h : S.Ok T L n dep) (debug : Bool) {l : Nat} (hl : l < L) {s : Nat × List Nat}
    (hs : Stored n ((List.range l).flatMap (S.level T L)) s) :
    wp (forRange 0 T (taskStep debug S l) s) (Stored n ((List.range (l + 1)).flatMap (S.level T L))) := by
  have htot : tot (S.level T L) L = n := by rw [tot_level h (Nat.le_refl _), h.lev.dlast]
  rw [flatMap_range_succ]
  have hle : tot (S.level T L) (l + 1) ≤ n := by rw [← htot]; exact tot_mono _ hl
  rw [tot_succ] at hle
  refine forRange_wp (fun t s => Stored n ((List.range l).flatMap (S.level T L) ++
    (List.range t).flatMap fun t => S.rows (t * L + l)) s) (Nat.zero_le _) ?_ ?_
  · rw [List.range_zero, List.flatMap_nil, List.append_nil]; exact hs
  · intro t s _ ht hs
    have hk := task_lt ht hl
    have htl := h.tsk.len
    have hb : rd S.threadBoundaries t = ok (t * L) := by
      unfold rd; rw [h.thr t (by omega)]
    have hb' : rd S.threadBoundaries (t + 1) = ok ((t + 1) * L) := by
      unfold rd; rw [h.thr (t + 1) (by omega)]
    have hc : checkTask debug S t (t * L + l) = ok () := by
      unfold checkTask
      split
      · rw [hb', ok_bind, if_pos (by rw [Nat.succ_mul]; omega)]
      · rfl
    unfold taskStep
    rw [hb, ok_bind, hc, ok_bind, rd_getD 0 (by omega), ok_bind, rd_getD 0 (by omega), ok_bind]
    have hp := h.tsk.dmono_le (show t * L + l + 1 ≤ T * L from hk) (Nat.le_refl _)
    rw [h.tsk.dlast] at hp
    refine wp_mono (taskRows_wp (h.tsk.dmono hk) (hp.trans (perm_len h)) hs ?_) ?_
    · have hr := rows_len h hk
      unfold LevelTasks.size at hr
      rw [List.length_append, ← hr]
      have hm : tot (fun t => S.rows (t * L + l)) (t + 1) ≤ tot (fun t => S.rows (t * L + l)) T := tot_mono _ ht
      rw [tot_succ] at hm
      have e1 : tot (fun t => S.rows (t * L + l)) T = (S.level T L l).length := rfl
      have e2 : tot (fun t => S.rows (t * L + l)) t = ((List.range t).flatMap fun t => S.rows (t * L + l)).length := rfl
      have e3 : tot (S.level T L) l = ((List.range l).flatMap (S.level T L)).length := rfl
      omega
    · intro s hs
      rw [flatMap_range_succ, ← List.append_assoc]
      exact hs

theorem levels_loop (h : S.Ok T L n dep) (debug : Bool) :
    levelsetSpmp debug n T S = ok (L, S.levIndices, (List.range L).flatMap (S.level T L)) := by
  have hlen := h.levLen
  have htot : tot (S.level T L) L = n := by rw [tot_level h (Nat.le_refl _), h.lev.dlast]
  have h1 : wp (forRange 0 (S.levIndices.length - 1) (fun lvl s => forRange 0 T (taskStep debug S lvl) s)
      (0, List.replicate n 0)) (Stored n ((List.range L).flatMap (S.level T L))) := by
    rw [hlen, Nat.add_sub_cancel]
    refine forRange_wp (fun l s => Stored n ((List.range l).flatMap (S.level T L)) s) (Nat.zero_le _) ?_ ?_
    · rfl
    · intro l s _ hl hs
      exact level_wp h debug hl hs
  obtain ⟨s, h2, h3⟩ := wp_iff.1 h1
  have hend : checkEnd debug S n = ok () := by
    unfold checkEnd
    split
    · have : back S.levIndices = ok n := by
        unfold back
        rw [List.getLast?_eq_getElem?, hlen, Nat.add_sub_cancel, h.lev.last]
      rw [this, ok_bind, if_pos rfl]
    · rfl
  unfold levelsetSpmp
  rw [h2, ok_bind, hend, ok_bind, h3, hlen]
  dsimp only
  have e : n - ((List.range L).flatMap (S.level T L)).length = 0 := by
    have : tot (S.level T L) L = ((List.range L).flatMap (S.level T L)).length := rfl
    omega
  rw [e, List.replicate_zero, List.append_nil, Nat.add_sub_cancel]

theorem flatMap_comm_perm {α β γ : Type} (k : List β) (f : α → β → List γ) (l : List α) :
    (l.flatMap fun a => k.flatMap fun b => f a b).Perm (k.flatMap fun b => l.flatMap fun a => f a b) := by
  induction l with
  | nil => simp
  | cons a l ih =>
    simp only [List.flatMap_cons]
    exact (List.Perm.append_left _ ih).trans (List.flatMap_append_perm k _ _)

/-- The rows in the order of the tasks. -/
theorem tasks_perm (h : S.Ok T L n dep) : ((List.range L).flatMap (S.level T L)).Perm (List.range n) := by
  have h1 : ((List.range L).flatMap (S.level T L)).Perm
      ((List.range T).flatMap fun t => (List.range L).flatMap fun l => S.rows (t * L + l)) :=
    flatMap_comm_perm _ _ _
  have h2 : ∀ T', ((List.range T').flatMap fun t => (List.range L).flatMap fun l => S.rows (t * L + l))
      = (List.range (T' * L)).flatMap S.rows := by
    intro T'
    induction T' with
    | zero => simp
    | succ T' ih =>
      rw [flatMap_range_succ, ih, Nat.succ_mul, List.range_add, List.flatMap_append, List.flatMap_map]
  rw [h2] at h1
  refine h1.trans ?_
  have h3 := flatMap_slices S.perm S.taskBoundaries (T * L) h.tsk.d0 fun b hb => h.tsk.dmono hb
  rw [h.tsk.dlast] at h3
  show ((List.range (T * L)).flatMap fun k => slice S.perm (S.taskBoundaries.getD k 0)
    (S.taskBoundaries.getD (k + 1) 0)).Perm _
  rw [h3]
  exact h.perm

theorem inLevel_task (h : S.Ok T L n dep) {l u : Nat} (hl : l < L)
    (hu : InLevel S.levIndices ((List.range L).flatMap (S.level T L)) l u) :
    ∃ t, t < T ∧ InLevel S.taskBoundaries S.perm (t * L + l) u := by
  have hmem : u ∈ S.level T L l := by
    obtain ⟨k, hk, hku⟩ := hu
    have hs : slice ((List.range L).flatMap (S.level T L)) (tot (S.level T L) l) (tot (S.level T L) (l + 1))
        = S.level T L l := Sp.slice_flatMap _ hl (List.take_of_length_le (Nat.le_refl _))
    rw [← hs, mem_slice, tot_level h (by omega), tot_level h (by omega)]
    obtain ⟨lo, hi, e1, e2, e3, e4⟩ := hk
    rw [h.lev.get (by omega), Option.some.injEq] at e1 e2
    exact ⟨k, by omega, by omega, hku⟩
  obtain ⟨t, ht, hr⟩ := List.mem_flatMap.1 hmem
  have ht := List.mem_range.1 ht
  refine ⟨t, ht, ?_⟩
  have hk := task_lt ht hl
  obtain ⟨k, k1, k2, k3⟩ := mem_slice.1 hr
  exact ⟨k, ⟨_, _, h.tsk.get (by omega), h.tsk.get (by omega), k1, k2⟩, k3⟩

end Verif.P2P
