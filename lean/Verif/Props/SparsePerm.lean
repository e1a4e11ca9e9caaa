import Verif.Proof.SparsePerm
import Verif.Props.Sparse

/-! # Property C31: permuting a matrix -/

namespace Verif.Sp
open Res

variable {V : Type} [Zero V]

/-- The optional permutation `f` (null pointer: identity) maps `0 .. n-1` onto itself. -/
def IsPerm (f : Option (List Nat)) (n : Nat) : Prop :=
  match f with
  | some l => l.Perm (List.range n)
  | none => True

/-- The image of `k`. -/
def app (f : Option (List Nat)) (k : Nat) : Nat :=
  match f with
  | some l => l.getD k 0
  | none => k

theorem ren_eq_app (f : Option (List Nat)) (k : Nat) : ren f k = app f k := rfl

theorem IsPerm.len {f : Option (List Nat)} {n : Nat} (h : IsPerm f n) :
    ∀ l, f = some l → n ≤ l.length := by
  rintro l rfl
  have := List.Perm.length_eq h
  simp at this; omega

theorem IsPerm.lt {f : Option (List Nat)} {n k : Nat} (h : IsPerm f n) (hk : k < n) :
    app f k < n := by
  cases f with
  | none => exact hk
  | some l =>
    have hl := IsPerm.len h l rfl
    have hm : app (some l) k ∈ l := List.mem_of_getElem? (getElem?_getD 0 (by omega))
    exact List.mem_range.1 (List.Perm.mem_iff h |>.1 hm)

theorem IsPerm.map_range {f : Option (List Nat)} {n : Nat} (h : IsPerm f n) :
    ((List.range n).map (app f)).Perm (List.range n) := by
  cases f with
  | none =>
    rw [show app none = id from rfl, List.map_id]
  | some l =>
    have hl : l.length = n := by simpa using List.Perm.length_eq h
    refine List.Perm.trans (List.Perm.of_eq ?_) h
    refine ext_getD 0 (by simp [hl]) ?_
    intro k hk
    simp only [List.length_map, List.length_range] at hk
    simp [List.getD_eq_getElem?_getD, hk, app]

/-- **C31.** `permute_general` with a column permutation `q` and a row permutation `pinv` (either may
be a null pointer): column `k` of the result is column `q[k]` of the input with every row index
`r` replaced by `pinv[r]`, in the original order; hence the entries of the result are those of the
input, relabelled. -/
theorem C31_permute_general {A : Sp V} {nnz : Nat} {pinv q : Option (List Nat)} (h : A.WF)
    (hc : 0 < A.cols) (hn : A.p.getD A.cols 0 ≤ nnz) (hp : IsPerm pinv A.rows)
    (hq : IsPerm q A.cols) :
    ∃ C, permuteGeneral A nnz pinv q = ok C ∧ C.WF ∧ C.rows = A.rows ∧ C.cols = A.cols ∧
      (∀ k, k < A.cols → C.colRows k = (A.colRows (app q k)).map (app pinv) ∧
        C.colVals k = A.colVals (app q k)) ∧
      (C.entries.map fun e => (e.1, app q e.2.1, e.2.2)).Perm
        (A.entries.map fun e => (app pinv e.1, e.2.1, e.2.2)) := by
  have hpw := h.toPatWF
  have htot : tot (fun k => A.colRows (ren q k)) A.cols = A.p.getD A.cols 0 := by
    have e1 : (List.range A.cols).flatMap (fun k => A.colRows (ren q k))
        = ((List.range A.cols).map (app q)).flatMap A.colRows := by
      rw [List.flatMap_map]; rfl
    have e2 := ((hq.map_range).flatMap_right A.colRows).length_eq
    have e3 := coordsTo_length hpw (le_refl A.cols)
    unfold tot
    rw [e1, e2, ← e3]
    unfold coordsTo
    rw [List.length_flatMap, List.length_flatMap]
    simp
  obtain ⟨C, h1, h2, h3, h4, h5, h6, h7, h8⟩ := wp_iff.1 (permuteGeneral_wp (nnz := nnz)
    (pinv := pinv) (q := q) h hc hp.len hq.len (fun k hk => hq.lt hk) (by rw [htot]; exact hn))
  have hpg : ∀ m, m ≤ A.cols → C.p.getD m 0 = tot (fun k => A.colRows (ren q k)) m := by
    intro m hm
    rw [h4]
    simp [List.getD_eq_getElem?_getD, show m < A.cols + 1 by omega]
  refine ⟨C, h1, ⟨⟨?_, ?_, ?_, ?_, ?_⟩, ?_⟩, h2, h3, fun k hk => ⟨h5 k hk, h6 k hk⟩, ?_⟩
  · rw [h4, h3]; simp
  · rw [hpg 0 (Nat.zero_le _)]; rfl
  · intro c hc'
    rw [h3] at hc'
    rw [hpg c (by omega), hpg (c + 1) (by omega)]
    exact tot_mono _ (Nat.le_succ c)
  · rw [h3, hpg _ (le_refl _), htot, h7]; exact hn
  · intro c hc' r hr
    rw [h3] at hc'
    rw [h5 c hc', List.mem_map] at hr
    obtain ⟨r', hr', rfl⟩ := hr
    rw [h2]
    exact hp.lt (hpw.range _ (hq.lt hc') r' hr')
  · rw [h3, hpg _ (le_refl _), htot, h8]; exact hn
  · let G : Nat → List (Nat × Nat × V) := fun c =>
      ((A.colRows c).zip (A.colVals c)).map fun e => (app pinv e.1, c, e.2)
    have e1 : C.entries.map (fun e => (e.1, app q e.2.1, e.2.2))
        = ((List.range A.cols).map (app q)).flatMap G := by
      unfold entries
      rw [List.map_flatMap, List.flatMap_map, h3]
      refine List.flatMap_congr ?_
      intro k hk
      rw [List.mem_range] at hk
      rw [h5 k hk, h6 k hk, List.map_map, ren_eq_app, List.zip_map_left, List.map_map]
      rfl
    have e2 : A.entries.map (fun e => (app pinv e.1, e.2.1, e.2.2))
        = (List.range A.cols).flatMap G := by
      unfold entries
      rw [List.map_flatMap]
      refine List.flatMap_congr ?_
      intro k _
      rw [List.map_map]
      rfl
    rw [e1, e2]
    exact hq.map_range.flatMap_right G

/-- If `q` repeats a long column, the write runs out of the allocated arrays. -/
theorem C31_needs_permutation :
    permuteGeneral (⟨2, 2, [0, 2, 2], [0, 1], [5, 7]⟩ : Sp Int) 2 none (some [0, 0]) = Res.ub := by
  decide

example : ∃ C, permuteGeneral exRect 5 (some [2, 0, 1]) (some [3, 1, 0, 2]) = ok C ∧ C.WF := by
  obtain ⟨C, h1, h2, _⟩ := C31_permute_general (nnz := 5) (pinv := some [2, 0, 1])
    (q := some [3, 1, 0, 2]) exRect_wf (by decide) (by decide) (by unfold IsPerm; decide)
    (by unfold IsPerm; decide)
  exact ⟨C, h1, h2⟩

example : permuteGeneral exRect 5 (some [2, 0, 1]) (some [3, 1, 0, 2])
    = ok ⟨3, 4, [0, 2, 2, 4, 5], [2, 1, 2, 1, 0], [40, 50, 10, 20, 30]⟩ := by decide

end Verif.Sp
