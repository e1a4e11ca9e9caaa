import Verif.Proof.GroupLevels

/-! # The graph of the runs -/

namespace Verif.RunGroup
open Res Csc Verif.Group

/-- The lists after the pushes `L` (target list, value). -/
def Pushed (num : Nat) (L : List (Nat × Nat)) (dag : List (List Nat)) : Prop :=
  dag.length = num ∧ ∀ s, s < num → dag.getD s [] = (L.filter (fun e => e.1 == s)).map (·.2)

theorem forEach_pushed {α : Type} {num : Nat} {f : α → List (List Nat) → Res (List (List Nat))}
    (c : α → List (Nat × Nat)) (l : List α)
    (h : ∀ a ∈ l, ∀ L dag, Pushed num L dag → wp (f a dag) (Pushed num (L ++ c a))) :
    ∀ L dag, Pushed num L dag → wp (forEach l f dag) (Pushed num (L ++ l.flatMap c)) := by
  induction l with
  | nil => intro L dag hd; simpa [forEach] using hd
  | cons a l ih =>
    intro L dag hd
    rw [forEach, wp_bind]
    refine wp_mono (h a (by simp) L dag hd) ?_
    intro d hd
    have := ih (fun b hb => h b (by simp [hb])) _ d hd
    rwa [List.append_assoc, ← List.flatMap_cons] at this

theorem push_wp {num s i : Nat} {L : List (Nat × Nat)} {dag : List (List Nat)}
    (h : Pushed num L dag) (hs : s < num) :
    wp (do let l ← rd dag s
           wr dag s (l ++ [i])) (Pushed num (L ++ [(s, i)])) := by
  rw [rd_getD [] (by rw [h.1]; exact hs), ok_bind, wr_eq (by rw [h.1]; exact hs), wp_ok]
  refine ⟨by simpa using h.1, fun t ht => ?_⟩
  rw [getD_set, List.filter_append, List.map_append]
  by_cases hst : s = t
  · subst hst
    rw [if_pos ⟨rfl, by rw [h.1]; exact hs⟩, h.2 s hs]
    simp
  · rw [if_neg (fun hc => hst hc.1), h.2 t ht]
    simp [hst]

/-- The pushes for one row. -/
def rowPushes (g : Csc) (link : Nat → Bool) (i row : Nat) : List (Nat × Nat) :=
  ((g.col row).dropLast).flatMap fun c => if grp link c ≠ i then [(grp link c, i)] else []

/-- All pushes. -/
def pushes (g : Csc) (link : Nat → Bool) (o : Out) (k : Nat) : List (Nat × Nat) :=
  (List.range k).flatMap fun i => (groupRows o.ptr o.set i).flatMap (rowPushes g link i)

theorem inspectorDep_wp {g : Csc} (hg : g.WF) {link : Nat → Bool} {o : Out} {N : Nat}
    (h : Done g.n N link o) :
    wp (inspectorDep o.num o.ptr o.set o.inv g.p g.i) (Pushed o.num (pushes g link o o.num)) := by
  unfold inspectorDep
  refine forRange_wp (fun k dag => Pushed o.num (pushes g link o k) dag) (Nat.zero_le _) ?_ ?_
  · refine ⟨by simp, fun s hs => ?_⟩
    rw [getD_replicate _ _ _ _ hs]
    rfl
  · intro i dag _ hi hd
    have hp := h.ptrOk
    have hpl := hp.len
    have hdm := hp.dmono hi
    have hle := hp.dle (b := i + 1) hi
    have hsl := h.lenSet
    rw [rd_getD 0 (by omega), ok_bind, rd_getD 0 (by omega), ok_bind]
    unfold forRange
    rw [forRange_rd o.set _ _ _ _ (by omega)]
    have hlt : ∀ row ∈ groupRows o.ptr o.set i, row < g.n := by
      intro row hr
      exact (h.mem_iff.1 (show o.grouping.Mem row i from ⟨hi, hr⟩)).1
    have key := forEach_pushed (num := o.num) (rowPushes g link i) (groupRows o.ptr o.set i)
      (f := fun row dag => do
        let a ← rd g.p row
        let b ← rd g.p (row + 1)
        forRange a (b - 1) (fun k dag => do
          let c ← rd g.i k
          let sid ← rd o.inv c
          if sid ≠ i then do
            let l ← rd dag sid
            wr dag sid (l ++ [i])
          else ok dag) dag) ?_ _ dag hd
    · rw [pushes, List.range_succ, List.flatMap_append, List.flatMap_singleton]
      exact key
    · intro row hr L dag hd
      have hrn := hlt row hr
      have hm := hg.mono row hrn
      have hlr := hg.ptr_le (a := row + 1) (by omega)
      rw [hg.rd_p (by omega), ok_bind, hg.rd_p (by omega), ok_bind]
      by_cases hne : g.ptr row = g.ptr (row + 1)
      · rw [forRange_empty _ _ (by omega), wp_ok]
        have hcol : g.col row = [] := by
          apply List.eq_nil_of_length_eq_zero
          rw [hg.col_length hrn]; omega
        rw [rowPushes, hcol]
        simpa using hd
      · unfold forRange
        rw [forRange_rd g.i _ _ _ _ (by omega)]
        have hsl : (g.i.drop (g.ptr row)).take (g.ptr (row + 1) - 1 - g.ptr row)
            = (g.col row).dropLast := by
          rw [List.dropLast_eq_take, hg.col_length hrn, col, List.take_take,
            Nat.min_eq_left (by omega)]
          congr 1
          omega
        rw [hsl]
        refine forEach_pushed (num := o.num) _ _ ?_ _ dag hd
        intro c hc L dag hd
        have hcn := hg.range row hrn c (List.dropLast_subset _ hc)
        rw [rd_getD 0 (by have := h.lenInv; omega), ok_bind, h.inv c hcn]
        by_cases hs : grp link c = i
        · rw [if_neg (by simpa using hs), if_neg (by simpa using hs), wp_ok, List.append_nil]
          exact hd
        · rw [if_pos hs, if_pos hs]
          refine push_wp hd ?_
          have := grp_lt_runs (link := link) hcn
          rw [h.num]; exact this

theorem mem_pushes {g : Csc} {link : Nat → Bool} {o : Out} {N : Nat} (h : Done g.n N link o) {s i k : Nat}
    (hk : k ≤ o.num) : (s, i) ∈ pushes g link o k ↔ i < k ∧ s ≠ i ∧
      ∃ row c, row < g.n ∧ grp link row = i ∧ c ∈ (g.col row).dropLast ∧ grp link c = s := by
  unfold pushes rowPushes
  simp only [List.mem_flatMap, List.mem_range]
  constructor
  · rintro ⟨i', hi', row, hr, c, hc, hin⟩
    have hm := h.mem_iff.1 (show o.grouping.Mem row i' from ⟨show i' < o.num by omega, hr⟩)
    split at hin
    · rename_i hne
      simp only [List.mem_singleton, Prod.mk.injEq] at hin
      obtain ⟨rfl, rfl⟩ := hin
      exact ⟨hi', hne, row, c, hm.1, hm.2, hc, rfl⟩
    · simp at hin
  · rintro ⟨h1, h2, row, c, h3, h4, h5, h6⟩
    refine ⟨i, h1, row, (h.mem_iff.2 ⟨h3, h4⟩).2, c, h5, ?_⟩
    rw [if_pos (by rw [h6]; exact h2), h6]
    simp

theorem pushes_sorted (g : Csc) (link : Nat → Bool) (o : Out) (k : Nat) :
    (pushes g link o k).Pairwise (fun a b => a.2 ≤ b.2) := by
  have hsnd : ∀ i, ∀ e ∈ (groupRows o.ptr o.set i).flatMap (rowPushes g link i), e.2 = i := by
    intro i e he
    unfold rowPushes at he
    simp only [List.mem_flatMap] at he
    obtain ⟨row, _, c, _, hin⟩ := he
    split at hin
    · simp only [List.mem_singleton] at hin; rw [hin]
    · simp at hin
  induction k with
  | zero => simp [pushes]
  | succ k ih =>
    rw [pushes, List.range_succ, List.flatMap_append, List.flatMap_singleton, List.pairwise_append]
    refine ⟨ih, ?_, ?_⟩
    · have hT : List.Pairwise (fun _ _ => True)
          ((groupRows o.ptr o.set k).flatMap (rowPushes g link k)) :=
        List.pairwise_of_forall (fun _ _ => trivial)
      refine hT.imp_of_mem ?_
      intro a b ha hb _
      rw [hsnd k a ha, hsnd k b hb]
    · intro a ha b hb
      rw [hsnd k b hb]
      simp only [List.mem_flatMap, List.mem_range] at ha
      obtain ⟨i, hi, ha⟩ := ha
      rw [hsnd i a (by simpa only [List.mem_flatMap] using ha)]
      omega

/-- The successor list of group `s` after `std::unique`. -/
theorem succ_lists {g : Csc} {link : Nat → Bool} {o : Out} {N : Nat} (h : Done g.n N link o)
    {dag : List (List Nat)} (hd : Pushed o.num (pushes g link o o.num) dag) {s : Nat}
    (hs : s < o.num) : ((uniqueAll dag).getD s []).Pairwise (· < ·) ∧
      ∀ i, i ∈ (uniqueAll dag).getD s [] ↔ i < o.num ∧ s ≠ i ∧
        ∃ row c, row < g.n ∧ grp link row = i ∧ c ∈ (g.col row).dropLast ∧ grp link c = s := by
  have e : (uniqueAll dag).getD s [] = stdUnique (dag.getD s []) := by
    unfold uniqueAll
    rw [List.getD_eq_getElem?_getD, List.getElem?_map, getElem?_getD [] (by rw [hd.1]; exact hs)]
    rfl
  rw [e, hd.2 s hs]
  constructor
  · refine stdUnique_sorted _ ?_
    rw [List.pairwise_map]
    exact (pushes_sorted g link o o.num).filter _
  · intro i
    rw [mem_stdUnique, List.mem_map, ← mem_pushes h (Nat.le_refl _)]
    constructor
    · rintro ⟨⟨a, b⟩, h1, rfl⟩
      rw [List.mem_filter] at h1
      simp only [beq_iff_eq] at h1
      obtain ⟨h2, rfl⟩ := h1
      exact h2
    · intro h1
      exact ⟨(s, i), by rw [List.mem_filter]; exact ⟨h1, by simp⟩, rfl⟩

theorem count_eq (dag : List (List Nat)) : count dag = dag.flatten.length :=
  totalLen_eq dag

/-- The columns of the group graph. -/
def cols (num : Nat) (dag : List (List Nat)) : List (List Nat) :=
  (List.range num).map fun c => c :: dag.getD c []

theorem cols_total {num : Nat} {dag : List (List Nat)} (hl : dag.length = num) :
    (cols num dag).flatten.length = count dag + num := by
  subst hl
  rw [count_eq, List.length_flatten, List.length_flatten]
  have e : (cols dag.length dag).map List.length = dag.map (fun l => l.length + 1) := by
    unfold cols
    apply List.ext_getElem (by simp)
    intro i h1 h2
    simp at h1
    simp [h1]
  rw [e]
  clear e
  induction dag with
  | nil => rfl
  | cons a l ih => simp only [List.map_cons, List.sum_cons, List.length_cons]; omega

theorem flatten_wp {n num : Nat} (hn : num ≤ n) {dag : List (List Nat)} (hl : dag.length = num) :
    wp (flatten n num dag) (fun r => r.1.length = n + 1 ∧
      r.1.take (num + 1) = (ofCols (cols num dag)).p ∧
      (cols num dag).flatten <+: r.2) := by
  have hcl : (cols num dag).length = num := by simp [cols]
  have hcg : ∀ c, c < num → (cols num dag).getD c [] = c :: dag.getD c [] := by
    intro c hc
    unfold cols
    rw [List.getD_eq_getElem?_getD, List.getElem?_map, List.getElem?_range hc]
    rfl
  have htotal := cols_total hl
  obtain ⟨rows, hrows⟩ : ∃ rows, cols num dag = rows := ⟨_, rfl⟩
  rw [hrows] at hcl hcg htotal ⊢
  unfold flatten
  rw [wp_bind]
  refine forRange_wp' (fun t (s : List Nat × List Nat × Nat) => s.1.length = n + 1 ∧
    (∀ k, k < t → s.1.getD k 0 = (rows.take k).flatten.length) ∧
    s.2.1.length = count dag + n ∧ s.2.2 = (rows.take t).flatten.length ∧
    s.2.1.take s.2.2 = (rows.take t).flatten) (Nat.zero_le _) ?_ ?_ ?_
  · exact ⟨by simp, by intro k hk; omega, by simp, by simp, by simp⟩
  · rintro t ⟨ptr, set, e⟩ _ ht ⟨h1, h2, h3, h4, h5⟩
    dsimp only at h1 h2 h3 h4 h5 ⊢
    obtain ⟨r, hr⟩ : ∃ r, dag.getD t [] = r := ⟨_, rfl⟩
    have hrt : rows.getD t [] = t :: r := by rw [hcg t ht, hr]
    have htot : e + (r.length + 1) ≤ set.length := by
      have h6 := flatten_take_le rows (a := t + 1) (b := rows.length) (by omega)
      rw [flatten_take_succ rows (by omega), List.take_length, List.length_append, hrt,
        List.length_cons] at h6
      omega
    rw [wr_eq (by omega), ok_bind, wr_eq (by omega), ok_bind, rd_getD [] (by omega), ok_bind,
      wp_bind, hr]
    have inner := forRange_wp (fun j (q : List Nat × Nat) => q.1.length = set.length ∧
      q.2 = e + 1 + j ∧ q.1.take q.2 = (rows.take t).flatten ++ t :: r.take j) (lo := 0)
      (hi := r.length)
      (f := fun j (q : List Nat × Nat) => do
        let v ← rd r j
        let gedg ← wr q.1 q.2 v
        ok (gedg, q.2 + 1)) (s := (set.set e t, e + 1)) (Nat.zero_le _) ⟨by simp, rfl, ?_⟩ ?_
    · refine wp_mono inner ?_
      rintro ⟨set', e'⟩ ⟨g1, g2, g3⟩
      dsimp only at g1 g2 g3 ⊢
      rw [wp_ok]
      refine ⟨by simpa using h1, ?_, g1.trans h3, ?_, ?_⟩
      · intro k hk
        rw [getD_set]
        by_cases hkt : t = k
        · subst hkt
          rw [if_pos ⟨rfl, by omega⟩, h4]
        · rw [if_neg (fun hc => hkt hc.1), h2 k (by omega)]
      · rw [flatten_take_succ rows (by omega), List.length_append, hrt, List.length_cons]
        dsimp only; omega
      · rw [flatten_take_succ rows (by omega), hrt, g3, List.take_length]
    · dsimp only
      rw [LevelSet.take_set_succ _ _ _ (by omega), h5, List.take_zero]
    · rintro j ⟨set', e'⟩ _ hj ⟨g1, g2, g3⟩
      dsimp only at g1 g2 g3 ⊢
      rw [rd_getD 0 hj, ok_bind, wr_eq (by omega), ok_bind, wp_ok]
      refine ⟨by simpa using g1, by dsimp only; omega, ?_⟩
      dsimp only
      rw [LevelSet.take_set_succ _ _ _ (by omega), g3, List.take_add_one, getElem?_getD 0 hj]
      simp
  · rintro ⟨ptr, set, e⟩ ⟨h1, h2, h3, h4, h5⟩
    dsimp only at h1 h2 h3 h4 h5 ⊢
    rw [wr_eq (by omega), ok_bind, wp_ok]
    refine ⟨by simpa using h1, ?_, ?_⟩
    · dsimp only
      apply List.ext_getElem?
      intro k
      unfold ofCols
      dsimp only
      rw [List.getElem?_take, List.getElem?_map, hcl]
      by_cases hk : k < num + 1
      · rw [if_pos hk, List.getElem?_range hk, getElem?_getD 0 (by simp; omega), getD_set]
        simp only [Option.map_some]
        by_cases hkt : num = k
        · subst hkt
          rw [if_pos ⟨rfl, by omega⟩, h4]
        · rw [if_neg (fun hc => hkt hc.1), h2 k (by omega)]
      · rw [if_neg hk, List.getElem?_eq_none (by simp; omega)]
        rfl
    · dsimp only
      rw [← hcl, List.take_length] at h5
      rw [← h5]
      exact List.take_prefix _ _

end Verif.RunGroup
