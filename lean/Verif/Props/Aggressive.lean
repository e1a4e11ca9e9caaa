import Verif.Proof.Aggressive

/-!
# C106: supernodes inside the parts of a schedule
-/

namespace Verif
open Res Csc

/-- Node `v` belongs to a group that is scheduled in level `l`, part `q`. -/
def Sched.NodeIn (σ : Sched) (G : Grouping) (v l q : Nat) : Prop := ∃ j k, G.Mem v j ∧ σ.At j l q k

/-- The groups of `u` and `v` are scheduled in the same level and part. -/
def Sched.SamePart (σ : Sched) (G : Grouping) (u v : Nat) : Prop := ∃ l q, σ.NodeIn G u l q ∧ σ.NodeIn G v l q

namespace Aggr

variable {g : Csc} {σ : Sched} {G : Grouping} {n : Nat}

theorem assign_wp (hG : G.Partition n) (hp : σ.PtrsOk G.num) (hc : σ.Complete G.num) :
    wp (assign n σ.levels σ.levelPtr σ.partPtr σ.nodes G.ptr G.set) (fun a => a.length = n ∧
      ∀ v l q, σ.NodeIn G v l q → a[v]? = some (q - σ.levelPtr.getD l 0, l)) := by
  obtain ⟨parts, hl, hq⟩ := hp
  have hnl : G.num ≤ σ.nodes.length := by
    have := hc.length_eq
    rw [List.length_take, List.length_range] at this
    omega
  have hnd : (σ.nodes.take G.num).Nodup := hc.nodup_iff.2 List.nodup_range
  have hnodes : ∀ k, k < G.num → σ.nodes.getD k 0 < G.num := by
    intro k hk
    have : σ.nodes.getD k 0 ∈ σ.nodes.take G.num := by
      rw [List.getD_eq_getElem _ _ (by omega), List.mem_iff_getElem?]
      exact ⟨k, by rw [List.getElem?_take_of_lt hk, List.getElem?_eq_getElem (by omega)]⟩
    have := hc.mem_iff.1 this
    rwa [List.mem_range] at this
  have hinj : ∀ k k', k < G.num → k' < G.num → σ.nodes.getD k 0 = σ.nodes.getD k' 0 → k = k' := by
    intro k k' hk hk' he
    refine nodup_getElem?_inj hnd (v := σ.nodes.getD k 0) ?_ ?_
    · rw [List.getElem?_take_of_lt hk, List.getD_eq_getElem _ _ (by omega), List.getElem?_eq_getElem (by omega)]
    · rw [he, List.getElem?_take_of_lt hk', List.getD_eq_getElem _ _ (by omega), List.getElem?_eq_getElem (by omega)]
  obtain ⟨Inv, hInv⟩ : ∃ Inv : Nat → List (Nat × Nat) → Prop, ∀ K a, Inv K a ↔ (a.length = n ∧
      ∀ k, k < K → ∀ v l q, G.Mem v (σ.nodes.getD k 0) → σ.At (σ.nodes.getD k 0) l q k →
        a[v]? = some (q - σ.levelPtr.getD l 0, l)) := ⟨_, fun _ _ => Iff.rfl⟩
  unfold assign
  refine forRange_wp' (fun lvl a => Inv (σ.partPtr.getD (σ.levelPtr.getD lvl 0) 0) a) (Nat.zero_le _) ?_ ?_ ?_
  · rw [hInv, hl.d0, hq.d0]
    exact ⟨List.length_replicate, fun k hk => absurd hk (Nat.not_lt_zero _)⟩
  · intro lvl a _ hlvl hI
    have hll := hl.len
    have hql := hq.len
    rw [rd_getD 0 (show lvl < σ.levelPtr.length by omega), ok_bind,
      rd_getD 0 (show lvl + 1 < σ.levelPtr.length by omega), ok_bind, wp_bind]
    refine forRange_wp' (fun q (t : Nat × List (Nat × Nat)) => t.1 = q - σ.levelPtr.getD lvl 0 ∧
      Inv (σ.partPtr.getD q 0) t.2) (hl.dmono hlvl) ⟨by dsimp only; omega, hI⟩ ?_ ?_
    · rintro q ⟨core, a⟩ h1 h2 ⟨hcore, hI⟩
      dsimp only at *
      have hqp : q < parts := Nat.lt_of_lt_of_le h2 (hl.dle (by omega))
      rw [rd_getD 0 (show q < σ.partPtr.length by omega), ok_bind,
        rd_getD 0 (show q + 1 < σ.partPtr.length by omega), ok_bind, wp_bind]
      refine forRange_wp' (fun k a => Inv k a) (hq.dmono hqp) hI ?_ ?_
      · intro k a k1 k2 hI
        have hkn : k < G.num := Nat.lt_of_lt_of_le k2 (hq.dle (by omega))
        obtain ⟨gr, hgr⟩ : ∃ gr, gr = σ.nodes.getD k 0 := ⟨_, rfl⟩
        have hgn : gr < G.num := by rw [hgr]; exact hnodes k hkn
        have hpl := hG.ptr.len
        have hsl := hG.set_len
        rw [rd_getD 0 (show k < σ.nodes.length by omega), ok_bind, ← hgr, rd_getD 0 (show gr < G.ptr.length by omega),
          ok_bind, rd_getD 0 (show gr + 1 < G.ptr.length by omega), ok_bind]
        have hgle := hG.ptr.dle (b := gr + 1) (by omega)
        have hmem : ∀ x, G.ptr.getD gr 0 ≤ x → x < G.ptr.getD (gr + 1) 0 → G.Mem (G.set.getD x 0) gr := by
          intro x x1 x2
          refine ⟨hgn, ?_⟩
          have : groupRows G.ptr G.set gr = slice G.set (G.ptr.getD gr 0) (G.ptr.getD (gr + 1) 0) := rfl
          rw [this, mem_slice]
          refine ⟨x, x1, x2, ?_⟩
          rw [List.getD_eq_getElem _ _ (by omega), List.getElem?_eq_getElem (by omega)]
        refine forRange_wp' (fun x a => Inv k a ∧ ∀ y, G.ptr.getD gr 0 ≤ y → y < x →
          a[G.set.getD y 0]? = some (core, lvl)) (hG.ptr.dmono hgn) ⟨hI, fun y y1 y2 => by omega⟩ ?_ ?_
        · rintro x a x1 x2 ⟨hI, hy⟩
          have hm := hmem x x1 x2
          have hlt := hG.mem_lt hm
          rw [hInv] at hI
          rw [rd_getD 0 (show x < G.set.length by omega), ok_bind, wr_eq (by rw [hI.1]; exact hlt), wp_ok]
          refine ⟨?_, ?_⟩
          · rw [hInv, List.length_set]
            refine ⟨hI.1, ?_⟩
            intro k' hk' v l q' hv hat
            rw [List.getElem?_set_ne]
            · exact hI.2 k' hk' v l q' hv hat
            · rintro rfl
              have e := hG.unique hm hv
              rw [hgr] at e
              have := hinj k k' hkn (by omega) e
              omega
          · intro y y1 y2
            by_cases he : G.set.getD x 0 = G.set.getD y 0
            · rw [he, List.getElem?_set_self (by rw [hI.1, ← he]; exact hlt)]
            · rw [List.getElem?_set_ne he]
              have : y ≠ x := by rintro rfl; exact he rfl
              exact hy y y1 (by omega)
        · rintro a ⟨hI, hy⟩
          rw [hInv] at hI ⊢
          refine ⟨hI.1, ?_⟩
          intro k' hk' v l q' hv hat
          rcases Nat.lt_succ_iff_lt_or_eq.1 hk' with h | rfl
          · exact hI.2 k' h v l q' hv hat
          · rw [← hgr] at hv
            have : groupRows G.ptr G.set gr = slice G.set (G.ptr.getD gr 0) (G.ptr.getD (gr + 1) 0) := rfl
            have hv2 := hv.2
            rw [this, mem_slice] at hv2
            obtain ⟨x, x1, x2, x3⟩ := hv2
            have e : G.set.getD x 0 = v := by rw [List.getD_eq_getElem?_getD, x3]; rfl
            rw [← e, hy x x1 x2]
            obtain ⟨a1, a2, a3, -⟩ := hat
            have hl' := (hl.inBlock_iff a1).1 a2
            have hq'p : q' < parts := Nat.lt_of_lt_of_le hl'.2 (hl.dle (by omega))
            have e1 : q' = q := hq.block_unique hq'p hqp ((hq.inBlock_iff hq'p).1 a3).1 ((hq.inBlock_iff hq'p).1 a3).2 k1 k2
            subst e1
            have e2 : l = lvl := hl.block_unique a1 hlvl hl'.1 hl'.2 h1 h2
            subst e2
            rw [hcore]
      · intro a hI
        rw [wp_ok]
        exact ⟨by dsimp only; omega, hI⟩
    · rintro ⟨core, a⟩ ⟨_, hI⟩
      rw [wp_ok]
      exact hI
  · intro a hI
    rw [hInv, hl.dlast, hq.dlast] at hI
    refine ⟨hI.1, ?_⟩
    rintro v l q ⟨j, k, hv, hat⟩
    have hk : k < G.num := by
      obtain ⟨a1, a2, a3, a4⟩ := hat
      have hl' := (hl.inBlock_iff a1).1 a2
      have hqp : q < parts := Nat.lt_of_lt_of_le hl'.2 (hl.dle (by omega))
      exact Nat.lt_of_lt_of_le ((hq.inBlock_iff hqp).1 a3).2 (hq.dle (by omega))
    have e : σ.nodes.getD k 0 = j := by rw [List.getD_eq_getElem?_getD, hat.2.2.2]; rfl
    exact hI.2 k hk v l q (by rw [e]; exact hv) (by rw [e]; exact hat)

theorem nodeIn_exists (hG : G.Partition n) (hp : σ.PtrsOk G.num) (hc : σ.Complete G.num) {v : Nat} (hv : v < n) :
    ∃ l q, σ.NodeIn G v l q ∧ σ.levelPtr.getD l 0 ≤ q := by
  obtain ⟨parts, hl, hq⟩ := hp
  obtain ⟨j, hj⟩ := hG.exists hv
  have := hc.mem_iff.2 (List.mem_range.2 hj.1)
  obtain ⟨k, hk⟩ := List.mem_iff_getElem?.1 this
  rw [List.getElem?_take] at hk
  split_ifs at hk with hkn
  obtain ⟨q, q1, q2, q3⟩ := hq.exists_block hkn
  obtain ⟨l, l1, l2, l3⟩ := hl.exists_block q1
  exact ⟨l, q, ⟨j, k, hj, l1, (hl.inBlock_iff l1).2 ⟨l2, l3⟩, (hq.inBlock_iff q1).2 ⟨q2, q3⟩, hk⟩, l2⟩

theorem average_eq (sn : List (List Nat)) : average (offs sn) = ok ((sn.flatten.length : Int), sn.length) := by
  suffices h : wp (average (offs sn)) (fun t => t = ((sn.flatten.length : Int), sn.length)) by
    obtain ⟨t, h1, rfl⟩ := wp_iff.1 h
    exact h1
  unfold average
  rw [offs_length, Nat.add_sub_cancel]
  refine forRange_wp' (fun i (t : Int × Nat) => t = (((sn.take i).flatten.length : Int), i)) (Nat.zero_le _) rfl ?_ ?_
  · rintro i _ _ hi rfl
    rw [rd_getD 0 (by rw [offs_length]; omega), ok_bind, rd_getD 0 (by rw [offs_length]; omega), ok_bind,
      offs_getD (by omega), offs_getD (by omega), wp_ok]
    dsimp only
    congr 1
    omega
  · rintro _ rfl
    rw [List.take_length]

/-- The grouping that `supernode_ptr` and `supernode_set` describe. -/
def St.grouping (s : St) : Grouping := ⟨s.ptr.length - 1, s.ptr, s.set⟩

/-- **C106**: for a matrix in column format with the diagonal first in every column and a complete schedule of a
partition into groups, `aggressiveSupernodeGrouping` finds supernodes that partition the columns and lie inside the
parts of the schedule.  Column `m` of the supernode that starts with `h` has the pattern of column `h` from entry
`m - h` on, and every `m` of the same part for which this holds for all columns from `h` to `m` is in the supernode
or in an earlier one.  The returned value is the number of columns divided by the number of supernodes. -/
theorem C106_aggressive (hwf : g.WF) (hd : g.DiagFirst) (hG : G.Partition g.n) (hp : σ.PtrsOk G.num)
    (hc : σ.Complete G.num) :
    ∃ s r, aggressive g.n σ.levels σ.levelPtr σ.partPtr σ.nodes G.ptr G.set g.p g.i = ok (s, r) ∧
      s.grouping.Partition g.n ∧ r = ((g.n : Int), s.grouping.num) ∧
      (∀ j u v, s.grouping.Mem u j → s.grouping.Mem v j → σ.SamePart G u v) ∧
      ∀ j, j < s.grouping.num → ∃ h rest, groupRows s.ptr s.set j = h :: rest ∧
        (∀ m ∈ rest, h < m ∧ (g.col h).drop (m - h) = g.col m) ∧
        ∀ m, h < m → m < g.n → σ.SamePart G h m → (∀ k, h < k → k ≤ m → (g.col h).drop (k - h) = g.col k) →
          ∃ j', j' ≤ j ∧ s.grouping.Mem m j' := by
  obtain ⟨a, e1, hal, ha⟩ := wp_iff.1 (assign_wp hG hp hc)
  obtain ⟨s, e2, sn, hC, hperm, hgood⟩ := wp_iff.1 (supernodes_wp hwf hd hal)
  have hnum : s.grouping.num = sn.length := by
    unfold St.grouping; dsimp only; rw [hC.ptr, offs_length, Nat.add_sub_cancel]
  have hsame : ∀ u v, u < g.n → v < g.n → (a[u]? = a[v]? ↔ σ.SamePart G u v) := by
    intro u v hu hv
    constructor
    · intro h
      obtain ⟨l, q, h1, h2⟩ := nodeIn_exists hG hp hc hu
      obtain ⟨l', q', h3, h4⟩ := nodeIn_exists hG hp hc hv
      rw [ha u l q h1, ha v l' q' h3, Option.some.injEq, Prod.mk.injEq] at h
      obtain ⟨h5, rfl⟩ := h
      have : q = q' := by omega
      subst this
      exact ⟨l, q, h1, h3⟩
    · rintro ⟨l, q, h1, h2⟩
      rw [ha u l q h1, ha v l q h2]
  have hrows : ∀ j (hj : j < sn.length), groupRows s.ptr s.set j = sn[j] := by
    intro j hj
    have : groupRows s.ptr s.set j = slice s.set (s.ptr.getD j 0) (s.ptr.getD (j + 1) 0) := rfl
    rw [this, hC.ptr, hC.set, offs_getD (by omega), offs_getD (by omega), Group.slice_flatten sn hj,
      List.getD_eq_getElem _ _ hj]
  have hmemlt : ∀ j (hj : j < sn.length), ∀ v ∈ sn[j], v < g.n := by
    intro j hj v hv
    exact hC.lt v (List.mem_flatten.2 ⟨_, List.getElem_mem hj, hv⟩)
  refine ⟨s, ((g.n : Int), sn.length), ?_, ?_, ?_, ?_, ?_⟩
  · unfold aggressive
    rw [e1, ok_bind, e2, ok_bind, hC.ptr, average_eq, ok_bind, hperm.length_eq, List.length_range]
  · refine ⟨?_, ?_⟩
    · rw [hnum]
      unfold St.grouping
      dsimp only
      rw [hC.ptr]
      refine PtrOk.mk' (by rw [offs_length]; omega) ?_ ?_ ?_
      · rw [offs_getD (by omega)]; rfl
      · rw [offs_getD (by omega), List.take_length, hperm.length_eq, List.length_range]
      · intro b hb
        rw [offs_getD (by omega), offs_getD (by omega)]
        exact Group.flatten_take_le sn (Nat.le_succ b)
    · unfold St.grouping
      dsimp only
      rw [hC.set, List.take_of_length_le (by rw [hperm.length_eq, List.length_range])]
      exact hperm
  · rw [hnum]
  · rintro j u v ⟨hj, hu⟩ ⟨_, hv⟩
    rw [hnum] at hj
    have hu' : u ∈ sn[j] := by rw [← hrows j hj]; exact hu
    have hv' : v ∈ sn[j] := by rw [← hrows j hj]; exact hv
    obtain ⟨h, rest, hl, hm, -⟩ := hgood j hj
    have key : ∀ x ∈ sn[j], a[h]? = a[x]? := by
      intro x hx
      rw [hl, List.mem_cons] at hx
      rcases hx with rfl | hx
      · rfl
      · exact (hm x hx).2.2.1
    exact (hsame u v (hmemlt j hj u hu') (hmemlt j hj v hv')).1 ((key u hu').symm.trans (key v hv'))
  · intro j hj
    rw [hnum] at hj
    obtain ⟨h, rest, hl, hm, hmax⟩ := hgood j hj
    refine ⟨h, rest, by rw [hrows j hj, hl], fun m hm' => ⟨(hm m hm').1, (hm m hm').2.2.2⟩, ?_⟩
    intro m h1 h2 h3 h4
    have := hmax m h1 h2 h4 ((hsame h m (by omega) h2).2 h3)
    have e : sn.take j ++ [sn[j]] = sn.take (j + 1) := by
      rw [List.take_add_one, List.getElem?_eq_getElem hj]; rfl
    rw [e] at this
    obtain ⟨l, hl1, hl2⟩ := List.mem_flatten.1 this
    obtain ⟨j', hj'⟩ := List.mem_iff_getElem?.1 hl1
    rw [List.getElem?_take] at hj'
    split_ifs at hj' with hlt
    obtain ⟨hj'', rfl⟩ := List.getElem?_eq_some_iff.1 hj'
    refine ⟨j', by omega, by rw [hnum]; exact hj'', ?_⟩
    change m ∈ groupRows s.ptr s.set j'
    rw [hrows j' hj'']
    exact hl2

/-- The entries of a strictly increasing list grow by at least one per position. -/
theorem sorted_gap {l : List Nat} (hs : l.Pairwise (· < ·)) {i j : Nat} (hij : i ≤ j) (hj : j < l.length) :
    l[i] + (j - i) ≤ l[j] := by
  induction j with
  | zero => simp [Nat.le_zero.1 hij]
  | succ j ih =>
    rcases Nat.lt_or_eq_of_le hij with h | rfl
    · have := ih (by omega) (by omega)
      have := List.pairwise_iff_getElem.1 hs j (j + 1) (by omega) hj (by omega)
      omega
    · simp

/-- **C106**: for sorted columns the members of a supernode of `C106_aggressive` make a dense triangle: column `h`
has entries in all rows from `h` to `m`, and below row `m` both columns have the same pattern. -/
theorem C106_dense {h m : Nat} (hm : m < g.n) (hhm : h < m) (hs : (g.col h).Pairwise (· < ·))
    (h0 : (g.col h).head? = some h) (hd : (g.col m).head? = some m) (he : (g.col h).drop (m - h) = g.col m) :
    (∀ k, h ≤ k → k ≤ m → k ∈ g.col h) ∧ ∀ r, m ≤ r → (r ∈ g.col m ↔ r ∈ g.col h) := by
  rw [← he, List.head?_drop] at hd
  rw [List.head?_eq_getElem?] at h0
  obtain ⟨l0, e0⟩ := List.getElem?_eq_some_iff.1 h0
  obtain ⟨l1, e1⟩ := List.getElem?_eq_some_iff.1 hd
  have key : ∀ q (hq : q ≤ m - h), (g.col h)[q]'(by omega) = h + q := by
    intro q hq
    have a1 := sorted_gap hs (Nat.zero_le q) (by omega)
    have a2 := sorted_gap hs hq l1
    omega
  refine ⟨?_, ?_⟩
  · intro k k1 k2
    have := key (k - h) (by omega)
    rw [List.mem_iff_getElem]
    exact ⟨k - h, by omega, by rw [this]; omega⟩
  · intro r hr
    rw [← he]
    refine ⟨fun h => List.mem_of_mem_drop h, fun hmem => ?_⟩
    obtain ⟨q, hq, rfl⟩ := List.mem_iff_getElem.1 hmem
    have : m - h ≤ q := by
      by_contra hlt
      have := key q (by omega)
      omega
    rw [List.mem_iff_getElem]
    refine ⟨q - (m - h), by rw [List.length_drop]; omega, ?_⟩
    rw [List.getElem_drop]
    congr 1
    omega

/-- **C106**, negative: an empty first column makes an invalid range of pointers. -/
theorem C106_empty_column (hwf : g.WF) (h0 : 0 < g.n) (he : g.col 0 = []) (a : List (Nat × Nat)) :
    supernodes g.n g.p g.i a = ub := by
  have hlen := hwf.col_length h0
  rw [he] at hlen
  have mc := hwf.mono_le (a := 0) (b := 1) (by omega) (by omega)
  simp only [List.length_nil] at hlen
  obtain ⟨q, hq⟩ : ∃ q, g.n = q + 1 := ⟨g.n - 1, by omega⟩
  have hcand : candidates g.p g.i 0 = ub := by
    unfold candidates
    rw [hwf.rd_p (by omega), ok_bind, hwf.rd_p (by omega), ok_bind, if_pos (by omega)]
  unfold supernodes
  conv_lhs => arg 1; arg 1; rw [hq]
  unfold whileF
  rw [ok_bind, decide_eq_true h0, if_pos rfl]
  unfold oneNode
  dsimp only
  rw [hcand]
  rfl

/-- A 4 x 4 matrix with a dense lower triangle on the columns 1, 2, 3. -/
def exM : Csc := ⟨4, [0, 2, 5, 7, 8], [0, 3, 1, 2, 3, 2, 3, 3]⟩

example : exM.WF := ⟨by decide, by decide, by decide, by decide, by decide⟩
example : exM.DiagFirst := by unfold Csc.DiagFirst; decide

/-- All nodes in one part: the supernodes are `{0}` and `{1, 2, 3}`. -/
example : aggressive 4 1 [0, 1] [0, 4] [0, 1, 2, 3] [0, 1, 2, 3, 4] [0, 1, 2, 3] exM.p exM.i =
    ok (⟨[true, true, true, true], [0, 1, 4], [0, 1, 2, 3]⟩, 4, 2) := by decide

/-- Column 3 in a level of its own: the supernodes are `{0}`, `{1, 2}` and `{3}`. -/
example : aggressive 4 2 [0, 1, 2] [0, 3, 4] [0, 1, 2, 3] [0, 1, 2, 3, 4] [0, 1, 2, 3] exM.p exM.i =
    ok (⟨[true, true, true, true], [0, 1, 3, 4], [0, 1, 2, 3]⟩, 4, 3) := by decide

example : Grouping.Partition ⟨4, [0, 1, 2, 3, 4], [0, 1, 2, 3]⟩ 4 :=
  ⟨PtrOk.mk' (by decide) rfl rfl (by decide), by decide⟩
example : Sched.PtrsOk ⟨2, [0, 1, 2], [0, 3, 4], [0, 1, 2, 3]⟩ 4 :=
  ⟨2, PtrOk.mk' (by decide) rfl rfl (by decide), PtrOk.mk' (by decide) rfl rfl (by decide)⟩
example : Sched.Complete ⟨2, [0, 1, 2], [0, 3, 4], [0, 1, 2, 3]⟩ 4 := by unfold Sched.Complete; decide

end Aggr
end Verif
