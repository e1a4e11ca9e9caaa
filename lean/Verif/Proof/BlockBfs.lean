import Verif.Proof.BlockComps
import Verif.Proof.LbcWin

/-! # The breadth first search of the blocked code

The blocked search does not count the diagonal block down; the search of the graph does, and the count
of a node that is taken from the queue is not read again. -/

namespace Verif.Blocked
open Res Csc Lbc BlockCsc

variable {M : BlockCsc}

/-- The count of a node without an edge does not matter. -/
theorem edges_other {u : Nat} (x : Int) (l : List Nat) (hu : u ∉ l) : ∀ (s t' : Bfs),
    forEach l bfsEdge { s with deg := s.deg.set u x } = ok t' →
    ∃ t, forEach l bfsEdge s = ok t ∧ t' = { t with deg := t.deg.set u x } := by
  induction l with
  | nil =>
    intro s t' h
    exact ⟨s, rfl, by cases h; rfl⟩
  | cons a l ih =>
    intro s t' h
    have hau : a ≠ u := fun e => hu (by rw [e]; simp)
    have hul : u ∉ l := fun e => hu (List.mem_cons_of_mem _ e)
    unfold forEach at h ⊢
    have hstep : ∀ s' : Bfs, bfsEdge a { s with deg := s.deg.set u x } = ok s' →
        ∃ s1, bfsEdge a s = ok s1 ∧ s' = { s1 with deg := s1.deg.set u x } := by
      intro s' hs
      unfold bfsEdge at hs ⊢
      dsimp only at hs
      by_cases hal : a < s.deg.length
      · rw [rd_getD 0 (by simpa using hal), ok_bind, wr_eq (by simpa using hal), ok_bind, getD_set,
          if_neg (c := u = a ∧ u < s.deg.length) (by omega)] at hs
        rw [rd_getD 0 hal, ok_bind, wr_eq hal, ok_bind]
        have hcomm : (s.deg.set u x).set a (s.deg.getD a 0 - 1)
            = (s.deg.set a (s.deg.getD a 0 - 1)).set u x := List.set_comm _ _ (fun e => hau e.symm)
        rw [hcomm] at hs
        split at hs
        · rename_i hd
          rw [if_pos hd]
          by_cases hv : a < s.visited.length
          · rw [rd_getD true hv, ok_bind] at hs ⊢
            refine ⟨_, rfl, ?_⟩
            cases hs
            rfl
          · unfold rd at hs
            rw [List.getElem?_eq_none (by omega)] at hs
            cases hs
        · rename_i hd
          rw [if_neg hd]
          refine ⟨_, rfl, ?_⟩
          cases hs
          rfl
      · unfold rd at hs
        rw [List.getElem?_eq_none (by simp; omega)] at hs
        cases hs
    obtain ⟨s', h1, h2⟩ := bind_inv h
    obtain ⟨s1, h3, rfl⟩ := hstep s' h1
    obtain ⟨t, h4, h5⟩ := ih hul s1 t' h2
    exact ⟨t, by rw [h3, ok_bind]; exact h4, h5⟩

theorem popOk (h : M.WF) (lab : List Int) : PopOk M.graph lab (bfsPop M lab) := by
  intro S W lv s0 hp P D Q u s hI
  have hwf := h.graph
  have huW : u ∈ W := hI.sub u (by simp)
  have hun : u < M.n := (hp.sub u huW).1
  obtain ⟨t', ht', Q', hB, hcnt⟩ := wp_iff.1 (bfsPop_wp hwf h.oneDiag hp hI)
  have hvl := hI.visLen
  have hdl := hI.degLen
  rw [graph_n] at hvl hdl
  obtain ⟨hl0, hl1⟩ := hp.labOk u huW
  have hpl := hI.partsLen
  obtain ⟨q0, hq0⟩ : ∃ q0 : Nat, lab.getD u 0 = q0 := ⟨(lab.getD u 0).toNat, by omega⟩
  have hm := hwf.mono u hun
  have hle := hwf.ptr_le (a := u + 1) (by rw [graph_n]; omega)
  have hlab := hp.labLen
  rw [graph_n] at hlab
  unfold Lbc.bfsPop at ht'
  unfold bfsPop
  rw [hI.queue] at ht' ⊢
  dsimp only at ht' ⊢
  rw [wr_eq (by omega), ok_bind, rd_getD 0 (by omega), ok_bind, hq0] at ht' ⊢
  unfold rdZ wrZ at ht' ⊢
  rw [if_neg (by omega), Int.toNat_natCast, rd_getD [] (by omega), ok_bind, if_neg (by omega),
    wr_eq (by omega), ok_bind] at ht' ⊢
  rw [hwf.rd_p (by rw [graph_n]; omega), ok_bind, hwf.rd_p (by rw [graph_n]; omega), ok_bind] at ht'
  unfold forRange at ht'
  rw [forRange_rd M.graph.i bfsEdge _ _ _ (by omega)] at ht'
  change forEach (M.graph.col u) bfsEdge _ = ok t' at ht'
  rw [graph_col hun] at ht'
  unfold BlockCsc.blocks forEach at ht'
  rw [blockCol_ok h hun, ok_bind]
  dsimp only
  rw [overRows_below h hun]
  -- the diagonal
  have hne : u ∉ (M.below u).map M.blkOf := by
    intro hc
    obtain ⟨r, hr, he⟩ := List.mem_map.1 hc
    exact (h.below_lt hun hr).2 he
  have hd0 : ∀ (v : List Bool) (p : List (List Nat)), v.length = M.n → v.getD u true = true →
      bfsEdge u ⟨Q, v, s.deg, p⟩ = ok { (⟨Q, v, s.deg, p⟩ : Bfs) with deg := s.deg.set u (s.deg.getD u 0 - 1) } := by
    intro v p hv hvu
    unfold bfsEdge
    dsimp only
    rw [rd_getD 0 (by omega), ok_bind, wr_eq (by omega), ok_bind]
    split
    · rw [rd_getD true (by omega), ok_bind, hvu]
      rfl
    · rfl
  rw [hd0 _ _ (by simpa using hvl) (by rw [getD_set, if_pos ⟨rfl, by omega⟩]), ok_bind] at ht'
  obtain ⟨t, ht, rfl⟩ := edges_other _ _ hne ⟨Q, s.visited.set u true, s.deg,
    s.parts.set q0 (s.parts.getD q0 [] ++ [u])⟩ _ ht'
  rw [ht, wp_ok]
  refine ⟨Q', ⟨hB.queue, hB.nodup, hB.sub, by simpa using hB.degLen, ?_, hB.mem, hB.topo, hB.visLen, hB.vis,
    hB.partsLen, hB.parts⟩, hcnt⟩
  intro x hx hxS
  have := hB.deg x hx hxS
  dsimp only at this
  rw [getD_set, if_neg (by rintro ⟨rfl, -⟩; exact hxS (by simp))] at this
  exact this

end Verif.Blocked
