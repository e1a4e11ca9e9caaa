import Verif.Proof.ExecSched

/-!
# The sequential variants of the scheduled solvers

`sptrsv_csr_levelset_seq` and `sptrsv_csr_lbc_seq` (example/sptrsv_src/sptrsv.cpp 47-82) visit the
positions of a schedule one after the other.
-/

namespace Verif.Exec
open Res

variable {V : Type} {A : Arith V} {m : Mat V}

/-- In a schedule every position has a part and a level. -/
theorem Sched.exists_at {s : Sched} {n : Nat} (hp : s.PtrsOk n) {k v : Nat} (hk : k < n)
    (hv : s.nodes[k]? = some v) : ∃ l q, s.At v l q k := by
  obtain ⟨parts, h1, h2⟩ := hp
  obtain ⟨q, hq, h3, h4⟩ := h2.exists_block hk
  obtain ⟨l, hl, h5, h6⟩ := h1.exists_block hq
  exact ⟨l, q, hl, (h1.inBlock_iff hl).2 ⟨h5, h6⟩, (h2.inBlock_iff hq).2 ⟨h3, h4⟩, hv⟩

/-- In a valid schedule every dependence goes to a later position. -/
theorem Sched.pos_lt {s : Sched} {n : Nat} {dep : Nat → Nat → Prop} (hv : s.Valid n dep)
    {u v k k' : Nat} (hd : dep u v) (hk : k < n) (hk' : k' < n) (hu : s.nodes[k]? = some u)
    (hv' : s.nodes[k']? = some v) : k < k' := by
  obtain ⟨l, q, ha⟩ := Sched.exists_at hv.ptrs hk hu
  obtain ⟨l', q', ha'⟩ := Sched.exists_at hv.ptrs hk' hv'
  have hr := hv.respects u v hd l q k l' q' k' ha ha'
  obtain ⟨hl, hq, hkq, _⟩ := ha
  obtain ⟨hl', hq', hkq', _⟩ := ha'
  obtain ⟨parts, h1, h2⟩ := hv.ptrs
  rw [h1.inBlock_iff hl] at hq
  rw [h1.inBlock_iff hl'] at hq'
  have b1 := h1.dle (b := l + 1) hl
  have b2 := h1.dle (b := l' + 1) hl'
  rw [h2.inBlock_iff (by omega)] at hkq hkq'
  rcases hr with h | ⟨_, _, h⟩
  · have e1 := h1.dmono_le (a := l + 1) (b := l') (by omega) (by omega)
    have e2 := h2.dmono_le (a := q + 1) (b := q') (by omega) (by omega)
    omega
  · exact h

/-- One row is solved. -/
theorem seqRow_spec (hm : m.LowerCsr) {s : Sched} (hs : s.Valid m.n m.RowDep) {b xs x : List V}
    (hS : m.Solution A b xs) {k : Nat} (hk : k < m.n) (hp : Prog m b xs (s.nodes.take k) x) :
    wp (do let i ← rd s.nodes k; serialRow A m.p m.i m.x i x)
      (Prog m b xs (s.nodes.take (k + 1))) := by
  have hR := LowerCsr.rowsOk hm
  have hlen := nodes_len hs.complete
  have hkl : k < s.nodes.length := by omega
  have hnd : (s.nodes.take m.n).Nodup := hs.complete.nodup_iff.2 List.nodup_range
  have hget : s.nodes[k]? = some s.nodes[k] := List.getElem?_eq_getElem hkl
  have hi : s.nodes[k] < m.n := by
    have : s.nodes[k] ∈ s.nodes.take m.n := by
      rw [List.mem_iff_getElem?]
      exact ⟨k, by rw [List.getElem?_take, if_pos hk, hget]⟩
    exact List.mem_range.1 (hs.complete.mem_iff.1 this)
  rw [rd_eq hkl]
  simp only [ok_bind]
  obtain ⟨v, h1, h2⟩ := hp.row hS hi (by
      intro hmem
      obtain ⟨j, hj⟩ := List.mem_iff_getElem?.1 hmem
      rw [List.getElem?_take] at hj
      split at hj
      · rename_i hjk
        have e1 : (s.nodes.take m.n)[j]? = some s.nodes[k] := by
          rw [List.getElem?_take, if_pos (by omega), hj]
        have e2 : (s.nodes.take m.n)[k]? = some s.nodes[k] := by
          rw [List.getElem?_take, if_pos hk, hget]
        have := nodup_getElem?_inj hnd e1 e2
        omega
      · cases hj) (by
      intro u hd
      have hu := (RowDep.lt hR hd).1
      have hmem := hs.complete.mem_iff.2 (List.mem_range.2 hu)
      obtain ⟨j, hj⟩ := List.mem_iff_getElem?.1 hmem
      rw [List.getElem?_take] at hj
      split at hj
      · rename_i hjn
        have := Sched.pos_lt hs hd hjn hk hj hget
        rw [List.mem_iff_getElem?]
        exact ⟨j, by rw [List.getElem?_take, if_pos this, hj]⟩
      · cases hj)
  rw [serialRow_spec hm.wf hi (hR.hd hi) (hR.offNe _ hi) h1]
  simp only [wp_ok]
  rw [List.take_add_one, hget]
  exact h2

/-- The parts of a schedule are visited. -/
theorem seqParts_spec (hm : m.LowerCsr) {s : Sched} (hs : s.Valid m.n m.RowDep) {b xs x : List V}
    (hS : m.Solution A b xs) {parts : Nat} (h2 : PtrOk s.partPtr parts m.n) {lo hi : Nat}
    (hle : lo ≤ hi) (hhi : hi ≤ parts)
    (hp : Prog m b xs (s.nodes.take (s.partPtr.getD lo 0)) x) :
    wp (forRange lo hi (fun j1 x => do
      let lo ← rd s.partPtr j1
      let hi ← rd s.partPtr (j1 + 1)
      forRange lo hi (fun k1 x => do
        let i ← rd s.nodes k1
        serialRow A m.p m.i m.x i x) x) x)
      (Prog m b xs (s.nodes.take (s.partPtr.getD hi 0))) := by
  refine forRange_wp (fun j x => Prog m b xs (s.nodes.take (s.partPtr.getD j 0)) x) hle hp ?_
  intro j x _ hj hI
  have hl := h2.len
  rw [rd_getD 0 (by omega : j < s.partPtr.length), rd_getD 0 (by omega : j + 1 < s.partPtr.length)]
  simp only [ok_bind]
  refine forRange_wp (fun k x => Prog m b xs (s.nodes.take k) x) (h2.dmono (by omega)) hI ?_
  intro k x _ hk hI
  have := h2.dle (b := j + 1) (by omega)
  exact seqRow_spec hm hs hS (by omega) hI

theorem sptrsvLbcSeq_spec (hm : m.LowerCsr) {s : Sched} (hs : s.Valid m.n m.RowDep)
    {b xs : List V} (hb : b.length = m.n) (hS : m.Solution A b xs) :
    sptrsvLbcSeq A m.p m.i m.x s b = ok xs := by
  obtain ⟨parts, h1, h2⟩ := hs.ptrs
  have hw : wp (sptrsvLbcSeq A m.p m.i m.x s b) (Prog m b xs (s.nodes.take m.n)) := by
    unfold sptrsvLbcSeq
    refine forRange_wp' (fun l x => Prog m b xs
      (s.nodes.take (s.partPtr.getD (s.levelPtr.getD l 0) 0)) x) (Nat.zero_le _) ?_ ?_ ?_
    · rw [h1.d0, h2.d0]
      exact ⟨hb, by simp⟩
    · intro l x _ hl hI
      have := h1.len
      rw [rd_getD 0 (by omega : l < s.levelPtr.length),
        rd_getD 0 (by omega : l + 1 < s.levelPtr.length)]
      simp only [ok_bind]
      exact seqParts_spec hm hs hS h2 (h1.dmono hl) (h1.dle hl) hI
    · intro x hI
      rw [h1.dlast, h2.dlast] at hI
      exact hI
  obtain ⟨x, h3, h4⟩ := wp_iff.1 hw
  rw [h3, h4.full hS.1 (fun a ha => hs.complete.mem_iff.2 (List.mem_range.2 ha))]

theorem sptrsvLevelsetSeq_spec (hm : m.LowerCsr) {levels : Nat} {levelPtr levelSet : List Nat}
    (hp : PtrOk levelPtr levels m.n)
    (hs : (Sched.ofLevels levels levelPtr levelSet).Valid m.n m.RowDep)
    {b xs : List V} (hb : b.length = m.n) (hS : m.Solution A b xs) :
    sptrsvLevelsetSeq A m.p m.i m.x levels levelPtr levelSet b = ok xs := by
  have hw : wp (sptrsvLevelsetSeq A m.p m.i m.x levels levelPtr levelSet b)
      (Prog m b xs (levelSet.take m.n)) := by
    unfold sptrsvLevelsetSeq
    refine forRange_wp' (fun l x => Prog m b xs (levelSet.take (levelPtr.getD l 0)) x)
      (Nat.zero_le _) ?_ ?_ ?_
    · rw [hp.d0]
      exact ⟨hb, by simp⟩
    · intro l x _ hl hI
      have := hp.len
      rw [rd_getD 0 (by omega : l < levelPtr.length), rd_getD 0 (by omega : l + 1 < levelPtr.length)]
      simp only [ok_bind]
      refine forRange_wp (fun k x => Prog m b xs (levelSet.take k) x) (hp.dmono hl) hI ?_
      intro k x _ hk hI
      have := hp.dle (b := l + 1) hl
      exact seqRow_spec (s := Sched.ofLevels levels levelPtr levelSet) hm hs hS (by omega) hI
    · intro x hI
      rw [hp.dlast] at hI
      exact hI
  obtain ⟨x, h3, h4⟩ := wp_iff.1 hw
  rw [h3, h4.full hS.1 (fun a ha => hs.complete.mem_iff.2 (List.mem_range.2 ha))]

end Verif.Exec
