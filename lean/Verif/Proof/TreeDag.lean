import Verif.Proof.TreeLevel
import Verif.Proof.LevelSetOk
import Verif.Proof.Slices

/-! # A forest as a graph -/

namespace Verif.Tree
open Res LevelSet

variable {n : Nat} {t : List Int}

/-- The forest as a graph: column `v` has the parent of `v` as its only entry. -/
def treeCsc (n : Nat) (t : List Int) : Csc :=
  ⟨n, (List.range (n + 1)).map (fun k => (inner k t).length), (inner n t).map (pkey t)⟩

theorem treeCsc_ptr {k : Nat} (hk : k ≤ n) : (treeCsc n t).ptr k = (inner k t).length := by
  unfold Csc.ptr treeCsc
  dsimp only
  rw [List.getD_eq_getElem?_getD, List.getElem?_map, List.getElem?_range (by omega)]
  rfl

theorem inner_append (k m : Nat) : ∃ post, inner (k + m) t = inner k t ++ post := by
  unfold inner
  rw [List.range_add, List.filter_append]
  exact ⟨_, rfl⟩

theorem treeCsc_col {v : Nat} (hv : v < n) : (treeCsc n t).col v = (parentOf t v).toList := by
  unfold Csc.col
  rw [treeCsc_ptr (by omega), treeCsc_ptr (by omega)]
  cases h : parentOf t v with
  | none => rw [inner_succ_none h]; simp
  | some p =>
    obtain ⟨post, hs⟩ := inner_split hv h
    have : (treeCsc n t).i = (inner v t ++ v :: post).map (pkey t) := by rw [← hs]; rfl
    rw [this, inner_succ_some h, List.map_append, List.drop_left' (by simp)]
    simp [pkey, h]

theorem treeCsc_wf (hf : Forest n (parentOf t)) : (treeCsc n t).WF := by
  refine ⟨by simp [treeCsc], ?_, ?_, ?_, ?_⟩
  · rw [treeCsc_ptr (Nat.zero_le _)]; rfl
  · intro u (hu : u < n)
    rw [treeCsc_ptr (by omega), treeCsc_ptr (by omega)]
    obtain ⟨post, h⟩ := inner_append (t := t) u 1
    rw [h]; simp
  · show (treeCsc n t).ptr n ≤ _
    rw [treeCsc_ptr (Nat.le_refl _)]
    simp [treeCsc]
  · intro u (hu : u < n) v hv
    rw [treeCsc_col hu] at hv
    exact (hf u v hu (by simpa using hv)).2

theorem treeCsc_dep (hf : Forest n (parentOf t)) {u v : Nat} :
    (treeCsc n t).Dep u v ↔ ChildOf n (parentOf t) u v := by
  constructor
  · rintro ⟨h1, h2, _⟩
    have h1 : u < n := h1
    rw [treeCsc_col h1] at h2
    exact ⟨h1, by simpa using h2⟩
  · rintro ⟨h1, h2⟩
    refine ⟨h1, ?_, ?_⟩
    · rw [treeCsc_col h1, h2]; simp
    · have := hf u v h1 h2
      omega

theorem treeCsc_path (hf : Forest n (parentOf t)) {k v : Nat} :
    (treeCsc n t).PathTo k v ↔ Chain n (parentOf t) k v := by
  constructor
  · intro h
    induction h with
    | nil hv => exact .nil hv
    | snoc _ hd ih => exact .snoc ih ((treeCsc_dep hf).1 hd)
  · intro h
    induction h with
    | nil hv => exact .nil hv
    | snoc _ hd ih => exact .snoc ih ((treeCsc_dep hf).2 hd)

theorem LevelsOk.levelOk (hf : Forest n (parentOf t)) {L : Nat} {ptr set n2l : List Nat}
    (h : LevelsOk n t L ptr set n2l) (hL : L < n) : LevelOk (treeCsc n t) L ptr set n2l := by
  have hmem : ∀ l, l < L → ∃ v, v < n ∧ n2l.getD v 0 = l := by
    obtain ⟨v0, hv0, htop⟩ := h.top
    have hch := (h.height v0 hv0).1
    obtain ⟨k, hk⟩ : ∃ k, n2l.getD v0 0 = k := ⟨_, rfl⟩
    have key : ∀ k v, v < n → n2l.getD v 0 = k → ∀ l, l ≤ k → ∃ v, v < n ∧ n2l.getD v 0 = l := by
      intro k
      induction k using Nat.strongRecOn with
      | _ k ih =>
        intro v hv hvk l hl
        rcases Nat.lt_or_ge l k with hlt | hge
        · have hc := (h.height v hv).1
          rw [hvk] at hc
          cases k with
          | zero => omega
          | succ k =>
            cases hc with
            | snoc hu hd =>
              rename_i u
              have h1 := (h.height u hd.1).2 _ hu
              have h2 := (h.height v hv).2 _ (.snoc (h.height u hd.1).1 hd)
              exact ih (n2l.getD u 0) (by omega) u hd.1 rfl l (by omega)
        · exact ⟨v, hv, by omega⟩
    intro l hl
    exact key k v0 hv0 hk l (by omega)
  have hstrict : ∀ l, l < L → ptr.getD l 0 < ptr.getD (l + 1) 0 := by
    intro l hl
    obtain ⟨v, hv, hvl⟩ := hmem l hl
    rw [h.start l (by omega), h.start (l + 1) (by omega), below_succ]
    have : 0 < cntKey (fun v => n2l.getD v 0) (List.range n) l := by
      rw [cntKey, List.countP_pos_iff]
      exact ⟨v, List.mem_range.2 hv, by simpa using hvl⟩
    omega
  have hptrL : ptr.getD L 0 = n := by
    rw [h.start L (Nat.le_refl _), below_all, List.length_range]
    intro v hv
    exact h.lt v (List.mem_range.1 hv)
  have hno : ∀ v, ¬ (treeCsc n t).PathTo L v := by
    intro v hp
    have hc := (treeCsc_path hf).1 hp
    have hv := (hc.lt hf).2
    have h1 := (h.height v hv).2 _ hc
    have h2 := h.lt v hv
    omega
  refine { ptrLen := by have := h.ptrLen; omega, setLen := h.setLen, ntlLen := h.n2lLen, lN := Nat.le_of_lt hL
           ptr0 := by rw [h.start 0 (Nat.zero_le _), below_zero]
           ptrL := hptrL, strict := hstrict, perm := h.perm, depth := ?_, lvl := ?_, noPath := hno
           ntlLt := h.lt, top := ?_, beyond := h.beyond }
  · intro v hv
    refine ⟨(treeCsc_path hf).2 (h.height v hv).1, fun hp => ?_⟩
    have := (h.height v hv).2 _ ((treeCsc_path hf).1 hp)
    omega
  · intro l k hl h1 h2
    have hk : set[k]? = some (set.getD k 0) := by
      have hb : ptr.getD (l + 1) 0 ≤ n := by
        rw [h.start (l + 1) (by omega)]
        exact (below_le_length _ _ _).trans (by simp)
      have := h.setLen
      rw [List.getD_eq_getElem?_getD, List.getElem?_eq_getElem (by omega)]; rfl
    have hm : set.getD k 0 ∈ slice set (ptr.getD l 0) (ptr.getD (l + 1) 0) :=
      mem_slice.2 ⟨k, h1, h2, hk⟩
    rw [h.block l hl, List.mem_filter] at hm
    simpa using hm.2
  · intro _
    obtain ⟨v0, hv0, htop⟩ := h.top
    refine ⟨by omega, v0, ?_⟩
    rw [← htop, Nat.add_sub_cancel]
    exact (treeCsc_path hf).2 (h.height v0 hv0).1

end Verif.Tree
